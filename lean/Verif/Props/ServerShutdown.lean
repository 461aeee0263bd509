import Verif.Server.LifecycleEnd
import Verif.Props.ServerLifecycle

/-!
# C56: shutting the server down always comes to an end, and to a clean one

The statements are about every history of the machine of `Verif.Server.Lifecycle`.
-/

namespace Mozolm.Server

/-- `n` steps -/
inductive Steps : Nat → Sys → Sys → Prop
  | nil (s) : Steps 0 s s
  | cons {n s s' s''} : Step s s' → Steps n s' s'' → Steps (n + 1) s s''

/-- Nothing more happens unless somebody calls `Shutdown` again. -/
def Stuck (s : Sys) : Prop := ∀ s', Step s s' → s'.threads.length = s.threads.length + 1

theorem step_work {s s' : Sys} (h : Reachable s) (hf : s.shutdown = true) (hst : Step s s')
    (hn : s'.threads.length = s.threads.length) : work s' < work s := by
  cases hst with
  | thread s1 t acts acts' ht ha =>
    obtain ⟨R, hR1, hR2⟩ := flatten_set ht
    have hcore : Core s (acts ++ R) := h.inv.core.perm hR1
    have := ha.work hcore hf
    have e1 : actsWeight s.acts = actsWeight acts + actsWeight R := by
      rw [Sys.acts, actsWeight_perm hR1, actsWeight_append]
    have e2 : actsWeight (s.threads.set t acts').flatten = actsWeight acts' + actsWeight R := by
      rw [actsWeight_perm (hR2 acts'), actsWeight_append]
    simp only [work, Sys.acts] at e1 ⊢
    rw [e1, e2]
    omega
  | callShutdown => simp at hn
  | arrive c h1 h2 h3 =>
    have := callsWeight_set h.inv.core.nodup ⟨c, h2, rfl, h3⟩ .readyOk
    simp only [work, phaseWeight, Sys.acts] at this ⊢
    omega
  | cancel c h1 h2 h3 =>
    have := callsWeight_set h.inv.core.nodup ⟨c, h2, rfl, h3⟩ .readyFail
    simp only [work, phaseWeight, Sys.acts] at this ⊢
    omega
  | finished c h2 h3 =>
    have := callsWeight_set h.inv.core.nodup ⟨c, h2, rfl, h3⟩ .finished
    simp only [work, phaseWeight, Sys.acts] at this ⊢
    omega

theorem Step.threads_le {s s' : Sys} (h : Step s s') : s.threads.length ≤ s'.threads.length := by
  cases h <;> simp

theorem Steps.threads_le {n : Nat} {s s' : Sys} (h : Steps n s s') :
    s.threads.length ≤ s'.threads.length := by
  induction h with
  | nil => exact Nat.le_refl _
  | cons h1 _ ih => exact Nat.le_trans h1.threads_le ih

/-- **C56** Once the shutdown flag is set the server can make only finitely many more steps, whatever
the clients, gRPC and the scheduler do (unless `Shutdown` is called again and again): the bound depends
only on the calls that exist and what the threads have left to do. -/
theorem C56_shutdown_terminates (s s' : Sys) (n : Nat) (h : Reachable s) (hf : s.shutdown = true)
    (hst : Steps n s s') (hn : s'.threads.length = s.threads.length) : n ≤ work s := by
  induction hst with
  | nil => exact Nat.zero_le _
  | cons h1 h2 ih =>
    have a := h1.threads_le
    have b := h2.threads_le
    have e : _ = _ := Nat.le_antisymm (Nat.le_trans b (Nat.le_of_eq hn)) a
    have := step_work h hf h1 e
    have := ih (h.step h1) ((C40_no_new_call _ _ h hf h1).1) (by omega)
    omega

theorem act_possible {s s' : Sys} {t : Nat} {acts acts' : List Act} (hs : Stuck s)
    (ht : s.threads[t]? = some acts) (ha : ActStep s acts s' acts') : False := by
  have := hs _ (.thread _ _ t acts acts' ht ha)
  simp at this

/-- What the threads of a stuck, running server can be waiting for. -/
theorem stuck_head {s : Sys} (h : Reachable s) (hs : Stuck s) (hcr : ¬ RequestAfterShutdown s)
    {acts : List Act} (hm : acts ∈ s.threads) :
    acts = [] ∨ acts = [.drive] ∨ ∃ rest, acts = .downWait :: rest := by
  obtain ⟨t, ht0, rfl⟩ := List.getElem_of_mem hm
  have ht : s.threads[t]? = some s.threads[t] := List.getElem?_eq_getElem ht0
  generalize he : s.threads[t] = acts at *
  cases acts with
  | nil => exact .inl rfl
  | cons a rest =>
    have np := fun {s' acts'} (ha : ActStep s (a :: rest) s' acts') => act_possible hs ht ha
    cases a with
    | build =>
      by_cases e : s.shutdown = true
      · exact (np (.buildLate _ _ e)).elim
      · exact (np (.buildFail _ _ (by simpa using e))).elim
    | incr k =>
      by_cases e : s.shutdown = true
      · exact (np (.incrNo _ _ _ e)).elim
      · exact (np (.incrYes _ _ _ (by simpa using e))).elim
    | arm k =>
      by_cases e : s.cqShut = true
      · exact (hcr ⟨t, k, rest, ht, e⟩).elim
      · exact (np (.arm _ _ _ (by simpa using e))).elim
    | handle id =>
      by_cases e : s.cqShut = true
      · exact (C39_no_reply_after_shutdown s h ⟨t, id, rest, ht, e⟩).elim
      · exact (np (.handle _ _ _ (by simpa using e))).elim
    | free id =>
      by_cases e : ∃ c ∈ s.calls, c.id = id
      · exact (np (.free _ _ _ e)).elim
      · exact (C38_no_double_free s h ⟨t, id, rest, ht, e⟩).elim
    | decr => exact (np (.decr _ _)).elim
    | drive =>
      have := h.prog.last _ hm
      simp only [lastOk, List.isEmpty_iff] at this
      exact .inr (.inl (by rw [this]))
    | setFlag =>
      by_cases e : s.started = true
      · exact (np (.flag _ _ e)).elim
      · exact (np (.flagNone _ _ (by simpa using e))).elim
    | downBegin => exact (np (.downBegin _ _)).elim
    | downWait => exact .inr (.inr ⟨rest, rfl⟩)
    | wait =>
      by_cases e : s.started = true
      · exact (np (.wait _ _ (h.prog.note e))).elim
      · rcases (h.prog.idle (by simpa using e)).2 _ hm with x | x | x <;>
          simp [runProgram, shutdownProgram] at x
    | cqShutdown => exact (np (.cqShutdown _ _)).elim

/-- No call is in the middle of anything when all threads are waiting. -/
theorem stuck_calls {s : Sys} (h : Reachable s) (hs : Stuck s) (hcr : ¬ RequestAfterShutdown s)
    {c : Call} (hc : c ∈ s.calls) :
    c.phase = .readyOk ∨ c.phase = .readyFail ∨ c.phase = .finished := by
  have nothing : ∀ a : Act, tracked a = true → a ∉ s.acts := by
    intro a ha hm
    obtain ⟨l, h1, h2⟩ := List.mem_flatten.1 hm
    rcases stuck_head h hs hcr h1 with rfl | rfl | ⟨rest, rfl⟩
    · simp at h2
    · simp only [List.mem_singleton] at h2; subst h2; cases ha
    · have := h.inv.ctl.shape _ h1 (by simp [isShut])
      cases this
      simp only [List.mem_cons, List.not_mem_nil, or_false] at h2
      rcases h2 with rfl | rfl | rfl | rfl <;> cases ha
  cases e : c.phase with
  | readyOk => exact .inl rfl
  | readyFail => exact .inr (.inl rfl)
  | finished => exact .inr (.inr rfl)
  | armed =>
    exfalso
    by_cases hd : s.serverDown = true
    · have := hs _ (.cancel s c hd hc e); simp at this
    · have := hs _ (.arrive s c (by simpa using hd) hc e); simp at this
  | finishing =>
    exfalso
    have := hs _ (.finished s c hc e); simp at this
  | processing =>
    exfalso
    rcases h.inv.core.ch c.id with ⟨x, _⟩ | ⟨_, x⟩
    · exact nothing (.handle c.id) rfl (List.count_pos_iff.1 (by omega))
    · exact x ⟨c, hc, rfl, e⟩
  | closing =>
    exfalso
    rcases h.inv.core.cf c.id with ⟨x, _⟩ | ⟨_, x⟩
    · exact nothing (.free c.id) rfl (List.count_pos_iff.1 (by omega))
    · exact x ⟨c, hc, rfl, e⟩

/-- **C56** After the shutdown flag is set the server never hangs: when nothing more can happen, all
threads have returned (`Run` and every `Shutdown`), every call object is deleted and the pending
counter is zero.  The one exception is the crash of `C39_false`: a thread requesting a call on the
queue that is already shut down. -/
theorem C56_shutdown_clean (s : Sys) (h : Reachable s) (hf : s.shutdown = true) (hs : Stuck s)
    (hcr : ¬ RequestAfterShutdown s) :
    (∀ acts ∈ s.threads, acts = []) ∧ s.calls = [] ∧ s.pending = 0 := by
  have hP := h.prog
  have hstop : ∀ acts ∈ s.threads, ∀ rest, acts = .downWait :: rest →
      (∃ c ∈ s.calls, c.phase = .readyOk) ∧ s.cqShut = false := by
    rintro acts hm rest rfl
    obtain ⟨t, ht0, he⟩ := List.getElem_of_mem hm
    have ht : s.threads[t]? = some (.downWait :: rest) := by
      rw [List.getElem?_eq_getElem ht0, he]
    have hex : ∃ c ∈ s.calls, c.phase = .readyOk := by
      apply Classical.byContradiction
      intro hno
      refine act_possible hs ht (.downWait s rest ?_)
      intro c hc
      refine ⟨fun e => hno ⟨c, hc, e⟩, fun e => ?_⟩
      rcases stuck_calls h hs hcr hc with x | x | x <;> rw [e] at x <;> cases x
    refine ⟨hex, ?_⟩
    obtain ⟨c, hc, e⟩ := hex
    apply Bool.eq_false_iff.2
    intro hq
    exact ((h.inv.ctl.shut hq).2.2 c.id).1 ⟨c, hc, rfl, e⟩
  have hdrive : ∀ acts ∈ s.threads, acts = [.drive] → s.calls = [] ∧ s.cqShut = false := by
    rintro acts hm rfl
    obtain ⟨t, ht0, he⟩ := List.getElem_of_mem hm
    have ht : s.threads[t]? = some [.drive] := by rw [List.getElem?_eq_getElem ht0, he]
    have hnil : s.calls = [] := by
      cases hcs : s.calls with
      | nil => rfl
      | cons c cs =>
        exfalso
        have hc : c ∈ s.calls := by rw [hcs]; simp
        rcases stuck_calls h hs hcr hc with e | e | e
        · exact act_possible hs ht (.driveOk s [] c hc e)
        · exact act_possible hs ht (.driveClose s [] c hc (.inl e))
        · exact act_possible hs ht (.driveClose s [] c hc (.inr e))
    refine ⟨hnil, ?_⟩
    apply Bool.eq_false_iff.2
    intro hq
    exact act_possible hs ht (.driveEnd s [] hq (by intro c hc; rw [hnil] at hc; simp at hc))
  -- a thread waiting in `Server::Shutdown` waits for a request a driver thread can take
  have hnodown : ∀ acts ∈ s.threads, ∀ rest, acts ≠ .downWait :: rest := by
    intro acts hm rest e
    obtain ⟨⟨c, hc, hp⟩, hq⟩ := hstop acts hm rest e
    by_cases hst : s.started = true
    · rcases hP.driver hst with ⟨d, hd1, hd2⟩ | ⟨x, _⟩
      · rcases stuck_head h hs hcr hd1 with rfl | rfl | ⟨r, rfl⟩
        · have := hd2.1; simp at this
        · have := (hdrive _ hd1 rfl).1
          rw [this] at hc; simp at hc
        · have := hd2.2.1; simp [isShut] at this
      · rw [hq] at x; cases x
    · have := (hP.idle (by simpa using hst)).1
      rw [this] at hc; simp at hc
  have hnodrive : ∀ acts ∈ s.threads, acts ≠ [.drive] := by
    intro acts hm e
    obtain ⟨hnil, hq⟩ := hdrive acts hm e
    by_cases hst : s.started = true
    · rcases hP.stopping hst hf with x | ⟨d, hd1, hd2⟩
      · rw [hq] at x; cases x
      · rcases stuck_head h hs hcr hd1 with rfl | rfl | ⟨r, rfl⟩
        · have := hd2.1; simp at this
        · have := hd2.1; simp [isShut] at this
        · exact hnodown _ hd1 r rfl
    · rcases (hP.idle (by simpa using hst)).2 acts hm with x | x | x <;> rw [e] at x <;>
        simp [runProgram, shutdownProgram] at x
  have hall : ∀ acts ∈ s.threads, acts = [] := by
    intro acts hm
    rcases stuck_head h hs hcr hm with x | x | ⟨r, x⟩
    · exact x
    · exact absurd x (hnodrive acts hm)
    · exact absurd x (hnodown acts hm r)
  have hnil : s.calls = [] := by
    by_cases hst : s.started = true
    · rcases hP.driver hst with ⟨d, hd1, hd2⟩ | ⟨_, x⟩
      · rw [hall d hd1] at hd2
        have := hd2.1; simp at this
      · cases hcs : s.calls with
        | nil => rfl
        | cons c cs =>
          exfalso
          have hc : c ∈ s.calls := by rw [hcs]; simp
          have := x c hc
          rcases stuck_calls h hs hcr hc with e | e | e <;> rw [e] at this <;> cases this
    · exact (hP.idle (by simpa using hst)).1
  refine ⟨hall, hnil, ?_⟩
  have hi : Idle s := by
    intro a ha b hb
    rw [hall a ha] at hb
    simp at hb
  rw [C38_pending_idle s h hi, hnil]
  rfl

/-- **C56** `Shutdown` never blocks waiting for the pending calls: the notification it waits for was
given when the server was started (which is also why it does not wait for them, `C39_false`). -/
theorem C56_wait_never_blocks (s : Sys) (h : Reachable s) (t : Nat) (rest : List Act)
    (ht : s.threads[t]? = some (.wait :: rest)) : s.notified = true := by
  have hm := List.mem_of_getElem? ht
  by_cases e : s.started = true
  · exact h.prog.note e
  · rcases (h.prog.idle (by simpa using e)).2 _ hm with x | x | x <;>
      simp [runProgram, shutdownProgram] at x

/-- The hypotheses are met: a `Shutdown` before the server was started ends with both threads
returned. -/
theorem reach_stuck : ∃ s : Sys, Reachable s ∧ s.shutdown = true ∧ Stuck s ∧
    ¬ RequestAfterShutdown s ∧ s.threads.length = 2 := by
  have r1 := Reachable.init.step (.callShutdown _)
  have r2 := r1.act 1 _ _ rfl (.flagNone _ _ rfl)
  have r3 := r2.act 0 _ _ rfl (.buildLate _ _ rfl)
  refine ⟨_, r3, rfl, ?_, ?_, rfl⟩
  · intro s' hst
    cases hst with
    | thread s1 t acts acts' ht ha =>
      have hm := List.mem_of_getElem? ht
      simp [Sys.init] at hm
      subst hm
      cases ha
    | callShutdown => simp
    | arrive c _ hc | cancel c _ hc | finished c hc => simp [Sys.init] at hc
  · rintro ⟨t, k, rest, ht, _⟩
    have hm := List.mem_of_getElem? ht
    simp [Sys.init] at hm

/-- The serving server of `reach_serving`, after the flag is set, has work left: the bound is not
vacuous. -/
example : ∃ s : Sys, Reachable s ∧ s.shutdown = true ∧ 60 ≤ work s := by
  have r2 := reach_serving.step (.callShutdown _)
  have r3 := r2.act 1 _ _ rfl (.flag _ _ rfl)
  exact ⟨_, r3, rfl, by decide⟩

end Mozolm.Server
