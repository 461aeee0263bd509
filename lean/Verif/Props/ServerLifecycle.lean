import Verif.Server.LifecycleStep
import Mathlib.Data.List.Perm.Subperm

/-!
# C38, C39, C40, C56: RPC life cycle and shutdown

`Reachable` ranges over every interleaving of the server thread(s), any number of `Shutdown` calls
and every behaviour of gRPC and its clients.
-/

namespace Mozolm.Server

/-- calls about to be requested: counted by `IncrementRpcPending`, not yet armed -/
def arming (s : Sys) : Nat := s.acts.countP isArm

/-- calls deleted but not yet subtracted from the counter -/
def uncounted (s : Sys) : Int := (s.acts.count .decr : Int) - s.acts.countP isFree

theorem frees_le {s : Sys} (h : Inv s) : s.acts.countP isFree ≤ s.calls.length := by
  -- distinct ids: each `free id` in the threads is the only one and names a live call
  have hnd : ((s.acts.filter isFree)).Nodup := by
    rw [List.nodup_iff_count]
    intro a
    by_cases ha : isFree a = true
    · rw [List.count_filter ha]
      cases a with
      | free id => rcases h.core.cf id with ⟨x, _⟩ | ⟨x, _⟩ <;> omega
      | _ => simp [isFree] at ha
    · rw [List.count_eq_zero.2 (by intro hm; exact ha (List.mem_filter.1 hm).2)]
      omega
  have hsub : s.acts.filter isFree ⊆ s.calls.map (fun c => Act.free c.id) := by
    intro a ha
    obtain ⟨h1, h2⟩ := List.mem_filter.1 ha
    cases a with
    | free id =>
      have hpos : 0 < s.acts.count (.free id) := List.count_pos_iff.2 h1
      rcases h.core.cf id with ⟨_, c, x, y, _⟩ | ⟨x, _⟩
      · exact List.mem_map.2 ⟨c, x, by rw [y]⟩
      · omega
    | _ => simp [isFree] at h2
  have := (List.subperm_of_subset hnd hsub).length_le
  rw [List.countP_eq_length_filter]
  simpa using this

/-- **C38** The counter is exactly the calls that exist or are about to be requested, corrected by the
calls whose clean-up is half done (deleted, not yet subtracted). -/
theorem C38_pending_exact (s : Sys) (h : Reachable s) :
    s.pending = s.calls.length + arming s + uncounted s := by
  have := h.inv.core.pend
  simp only [arming, uncounted]
  omega

/-- **C38** The counter is never negative. -/
theorem C38_pending_nonneg (s : Sys) (h : Reachable s) : 0 ≤ s.pending := by
  have h1 := h.inv.core.pend
  have h2 := frees_le h.inv
  omega

/-- **C38** Whenever all threads are between events the counter is the number of call objects. -/
theorem C38_pending_idle (s : Sys) (h : Reachable s) (hi : Idle s) :
    s.pending = s.calls.length := by
  have h1 := h.inv.core.pend
  have hall : ∀ a ∈ s.acts, a = .drive := by
    intro a ha
    obtain ⟨l, h1, h2⟩ := List.mem_flatten.1 ha
    exact hi l h1 a h2
  have e1 : s.acts.countP isArm = 0 := by
    rw [List.countP_eq_zero]; intro a ha; rw [hall a ha]; simp [isArm]
  have e2 : s.acts.countP isFree = 0 := by
    rw [List.countP_eq_zero]; intro a ha; rw [hall a ha]; simp [isFree]
  have e3 : s.acts.count .decr = 0 := by
    rw [List.count_eq_zero]; intro ha; have := hall _ ha; cases this
  omega

/-- **C38** Objects are never deleted twice. -/
theorem C38_no_double_free (s : Sys) (h : Reachable s) : ¬ DoubleFree s := by
  rintro ⟨t, id, rest, h1, h2⟩
  have hm : Act.free id ∈ s.acts :=
    List.mem_flatten.2 ⟨_, List.mem_of_getElem? h1, by simp⟩
  have hpos : 0 < s.acts.count (.free id) := List.count_pos_iff.2 hm
  rcases h.inv.core.cf id with ⟨_, c, x, y, _⟩ | ⟨x, _⟩
  · exact h2 ⟨c, x, y⟩
  · omega

/-- **C38** Every call object ever created is live or has been deleted exactly once, never both. -/
theorem C38_freed_once (s : Sys) (h : Reachable s) (id : Nat) (hid : id < s.next) :
    (s.freed.count id = 1 ∧ ¬ ∃ c ∈ s.calls, c.id = id) ∨
    (s.freed.count id = 0 ∧ ∃ c ∈ s.calls, c.id = id) := by
  have hc := h.inv.core
  rcases hc.all id hid with a | a
  · refine .inl ⟨?_, (hc.freedLt id a).2⟩
    have := List.nodup_iff_count.1 hc.freedNodup id
    have := List.count_pos_iff.2 a
    omega
  · refine .inr ⟨?_, a⟩
    rw [List.count_eq_zero]
    intro hf
    exact (hc.freedLt id hf).2 a

/-- **C38** No call gets two replies, none that was not taken up gets one, and a request that was taken
up has its reply before its objects are deleted. -/
theorem C38_one_reply (s : Sys) (h : Reachable s) (id : Nat) :
    s.replied.count id ≤ 1 ∧ (id ∈ s.replied → id ∈ s.accepted) ∧
      (id ∈ s.accepted → id ∈ s.freed → s.replied.count id = 1) := by
  have hc := h.inv.core
  refine ⟨List.nodup_iff_count.1 hc.repNodup id, fun hr => (hc.rep id hr).1, fun ha hf => ?_⟩
  have h1 := List.nodup_iff_count.1 hc.repNodup id
  rcases (hc.acc id ha).2 with b | b
  · have := List.count_pos_iff.2 b
    omega
  · exact absurd b.live (hc.freedLt id hf).2

/-- **C38** When all threads are between events, every request that was taken up has been answered
exactly once. -/
theorem C38_answered_idle (s : Sys) (h : Reachable s) (hi : Idle s) (id : Nat)
    (ha : id ∈ s.accepted) : s.replied.count id = 1 := by
  have hc := h.inv.core
  have h1 := List.nodup_iff_count.1 hc.repNodup id
  rcases (hc.acc id ha).2 with b | b
  · have := List.count_pos_iff.2 b
    omega
  · exfalso
    rcases hc.ch id with ⟨x, _⟩ | ⟨_, x⟩
    · have hm : Act.handle id ∈ s.acts := List.count_pos_iff.1 (by omega)
      obtain ⟨l, h2, h3⟩ := List.mem_flatten.1 hm
      have := hi l h2 _ h3
      cases this
    · exact x b

/-- **C39** (positive half) A reply is never started on a completion queue that is shut down, in any
schedule, with any number of concurrent `Shutdown` calls. -/
theorem C39_no_reply_after_shutdown (s : Sys) (h : Reachable s) : ¬ FinishAfterShutdown s := by
  rintro ⟨t, id, rest, h1, h2⟩
  have hm : Act.handle id ∈ s.acts :=
    List.mem_flatten.2 ⟨_, List.mem_of_getElem? h1, by simp⟩
  have hpos : 0 < s.acts.count (.handle id) := List.count_pos_iff.2 hm
  have hq := (h.inv.ctl.shut h2).2
  rcases h.inv.core.ch id with ⟨_, x⟩ | ⟨x, _⟩
  · exact (hq.2 id).2 x
  · omega

/-- **C39** (positive half) When the completion queue is shut down no request is being processed and
none is waiting to be: every request taken up has been answered. -/
theorem C39_all_answered_at_queue_shutdown (s : Sys) (h : Reachable s) (hq : s.cqShut = true) :
    (∀ c ∈ s.calls, c.phase ≠ .readyOk ∧ c.phase ≠ .processing) ∧
      ∀ id ∈ s.accepted, s.replied.count id = 1 := by
  have hQ := (h.inv.ctl.shut hq).2
  refine ⟨fun c hc => ⟨fun e => (hQ.2 c.id).1 ⟨c, hc, rfl, e⟩, fun e => (hQ.2 c.id).2 ⟨c, hc, rfl, e⟩⟩, ?_⟩
  intro id ha
  have hc := h.inv.core
  have h1 := List.nodup_iff_count.1 hc.repNodup id
  rcases (hc.acc id ha).2 with b | b
  · have := List.count_pos_iff.2 b
    omega
  · exact absurd b (hQ.2 id).2

/-- **C40** After the flag is set no thread ever registers another call: the calls created so far plus
those already registered stay the same, and the pending counter never grows. -/
theorem C40_no_new_call (s s' : Sys) (h : Reachable s) (hf : s.shutdown = true) (hst : Step s s') :
    s'.shutdown = true ∧ s'.pending ≤ s.pending ∧ s'.next + arming s' = s.next + arming s := by
  have cp : ∀ {t : Nat} {acts acts' : List Act}, s.threads[t]? = some acts →
      acts'.countP isArm + s.acts.countP isArm =
        (s.threads.set t acts').flatten.countP isArm + acts.countP isArm := by
    intro t acts acts' ht
    obtain ⟨R, h1, h2⟩ := flatten_set ht
    rw [Sys.acts, h1.countP_eq, (h2 acts').countP_eq, List.countP_append, List.countP_append]
    omega
  cases hst with
  | thread s1 t acts acts' ht ha =>
    have := cp (acts' := acts') ht
    have hmem : acts ∈ s.threads := List.mem_of_getElem? ht
    simp only [Sys.acts] at this
    simp only [arming, Sys.acts]
    cases ha with
    | buildLate rest =>
      have hr := h.inv.ctl.run _ hmem (by simp)
      simp only [runProgram, List.cons.injEq] at hr
      obtain ⟨_, rfl⟩ := hr
      simp only [List.countP_cons, List.countP_nil, isArm] at this
      exact ⟨hf, Int.le_refl _, by simp at this ⊢; omega⟩
    | flagNone rest =>
      have hr := h.inv.ctl.shape _ hmem (by simp [isShut])
      cases hr
      simp only [List.countP_cons, List.countP_nil, isArm] at this
      exact ⟨rfl, Int.le_refl _, by simp at this ⊢; omega⟩
    | buildFail _ hx | buildOk _ hx | incrYes _ _ hx => rw [hf] at hx; cases hx
    | flag =>
      simp only [List.countP_cons, isArm] at this
      exact ⟨rfl, Int.le_refl _, by simp at this ⊢; omega⟩
    | decr =>
      simp only [List.countP_cons, isArm] at this
      exact ⟨hf, by simp only; omega, by simp at this ⊢; omega⟩
    | _ =>
      simp only [List.countP_cons, isArm] at this
      exact ⟨hf, Int.le_refl _, by simp at this ⊢; omega⟩
  | callShutdown =>
    simp [arming, Sys.acts, shutdownProgram, isArm, hf]
  | arrive => exact ⟨hf, Int.le_refl _, rfl⟩
  | cancel => exact ⟨hf, Int.le_refl _, rfl⟩
  | finished => exact ⟨hf, Int.le_refl _, rfl⟩

/-- **C40** Once every completion is delivered and the threads are done with them, nothing is pending:
no call object leaks. -/
theorem C40_nothing_left (s : Sys) (h : Reachable s) (hi : Idle s) (hd : drained s.calls) :
    s.calls = [] ∧ s.pending = 0 := by
  have hc := h.inv.core
  have hnil : s.calls = [] := by
    cases hcs : s.calls with
    | nil => rfl
    | cons c cs =>
      exfalso
      have hm : c ∈ s.calls := by rw [hcs]; simp
      have none : ∀ a : Act, a ∈ s.acts → a = .drive := by
        intro a ha
        obtain ⟨l, h1, h2⟩ := List.mem_flatten.1 ha
        exact hi l h1 a h2
      rcases hd c hm with e | e
      · rcases hc.ch c.id with ⟨x, _⟩ | ⟨_, x⟩
        · have := none _ (List.count_pos_iff.1 (show 0 < s.acts.count (.handle c.id) by omega))
          cases this
        · exact x ⟨c, hm, rfl, e⟩
      · rcases hc.cf c.id with ⟨x, _⟩ | ⟨_, x⟩
        · have := none _ (List.count_pos_iff.1 (show 0 < s.acts.count (.free c.id) by omega))
          cases this
        · exact x ⟨c, hm, rfl, e⟩
  refine ⟨hnil, ?_⟩
  rw [C38_pending_idle s h hi, hnil]
  rfl

/-- After the server is down no request is taken from the network any more. -/
theorem C40_no_arrival (s s' : Sys) (hd : s.serverDown = true) (hst : Step s s') (c : Call)
    (hc : c ∈ s'.calls) (hp : c.phase = .readyOk) : c ∈ s.calls := by
  have hset : ∀ (id : Nat) (q : Phase), q ≠ .readyOk → c ∈ setPhase s.calls id q → c ∈ s.calls := by
    intro id q hq hm
    obtain ⟨c0, h1, h2⟩ := List.mem_map.1 hm
    by_cases e : c0.id = id
    · rw [if_pos e] at h2; subst h2; exact absurd hp hq
    · rw [if_neg e] at h2; subst h2; exact h1
  cases hst with
  | thread s1 t acts acts' ht ha =>
    cases ha with
    | arm k rest hq =>
      rcases List.mem_append.1 hc with h | h
      · exact h
      · simp only [List.mem_singleton] at h; subst h; cases hp
    | handle id rest => exact hset _ _ (by decide) hc
    | free id rest => exact (List.mem_filter.1 hc).1
    | driveOk rest c1 => exact hset _ _ (by decide) hc
    | driveClose rest c1 => exact hset _ _ (by decide) hc
    | _ => exact hc
  | callShutdown => exact hc
  | arrive c1 h1 => rw [hd] at h1; cases h1
  | cancel c1 => exact hset _ _ (by decide) hc
  | finished c1 => exact hset _ _ (by decide) hc

/-! ## histories -/

theorem Reachable.act {s s' : Sys} (h : Reachable s) (t : Nat) (acts acts' : List Act)
    (ht : s.threads[t]? = some acts) (ha : ActStep s acts s' acts') :
    Reachable { s' with threads := s.threads.set t acts' } :=
  h.step (.thread _ _ t acts acts' ht ha)

/-- the server has started and the main thread has registered its first call -/
theorem reach_registered : Reachable
    { Sys.init with
      started := true
      notified := true
      pending := 1
      threads := [[.arm .nextState, .incr .lmScores, .incr .update, .drive]] } := by
  have r1 := Reachable.init.act 0 _ _ rfl (.buildOk _ _ rfl)
  exact r1.act 0 _ _ rfl (.incrYes _ _ _ rfl)

/-- **C39 is false**: `Shutdown` can run to its end while the main thread is starting: the wait for
the pending calls does not wait, because the notification was already given by `BuildAndStart`.  The
completion queue is shut down with a call pending, and the main thread is about to request that call
on the queue that is shut down (gRPC aborts the process on that). -/
theorem C39_false : ∃ s : Sys, Reachable s ∧ s.cqShut = true ∧ s.pending = 1 ∧
    RequestAfterShutdown s := by
  have r2 := reach_registered.step (.callShutdown _)
  have r3 := r2.act 1 _ _ rfl (.flag _ _ rfl)
  have r4 := r3.act 1 _ _ rfl (.downBegin _ _)
  have r5 := r4.act 1 _ _ rfl (.downWait _ _ (by intro c hc; simp [Sys.init] at hc))
  have r6 := r5.act 1 _ _ rfl (.wait _ _ rfl)
  have r7 := r6.act 1 _ _ rfl (.cqShutdown _ _)
  exact ⟨_, r7, rfl, rfl, 0, .nextState, _, rfl, rfl⟩

/-- the server is waiting for requests: three calls are armed -/
def serving : Sys :=
  { started := true, shutdown := false, pending := 3, notified := true, serverDown := false,
    cqShut := false, next := 3,
    calls := [⟨0, .nextState, .armed⟩, ⟨1, .lmScores, .armed⟩, ⟨2, .update, .armed⟩],
    threads := [[.drive]], accepted := [], replied := [], freed := [] }

theorem reach_serving : Reachable serving := by
  have r3 := reach_registered.act 0 _ _ rfl (.arm _ _ _ rfl)
  have r4 := r3.act 0 _ _ rfl (.incrYes _ _ _ rfl)
  have r5 := r4.act 0 _ _ rfl (.arm _ _ _ rfl)
  have r6 := r5.act 0 _ _ rfl (.incrYes _ _ _ rfl)
  exact r6.act 0 _ _ rfl (.arm _ _ _ rfl)

/-- **C39 is false** also without any race: in an ordinary shutdown of an idle server the completion
queue is shut down with all three calls pending. -/
theorem C39_false_idle_server : ∃ s : Sys, Reachable s ∧ s.cqShut = true ∧ s.pending = 3 ∧
    s.calls.length = 3 := by
  have r2 := reach_serving.step (.callShutdown _)
  have r3 := r2.act 1 _ _ rfl (.flag _ _ rfl)
  have r4 := r3.act 1 _ _ rfl (.downBegin _ _)
  have r5 := r4.act 1 _ _ rfl (.downWait _ _ (by
    intro c hc; simp only [serving, List.mem_cons, List.not_mem_nil, or_false] at hc
    rcases hc with rfl | rfl | rfl <;> exact ⟨by decide, by decide⟩))
  have r6 := r5.act 1 _ _ rfl (.wait _ _ rfl)
  have r7 := r6.act 1 _ _ rfl (.cqShutdown _ _)
  exact ⟨_, r7, rfl, rfl, rfl⟩

/-- One request served from arrival to clean-up: the hypotheses of the C38 theorems are met by a
history in which a call was accepted, answered and deleted. -/
theorem reach_served : ∃ s : Sys, Reachable s ∧ Idle s ∧ s.accepted = [0] ∧ s.replied = [0] ∧
    s.freed = [0] ∧ s.pending = 3 ∧ s.next = 4 := by
  have r1 := reach_serving.step (.arrive _ ⟨0, .nextState, .armed⟩ rfl (by simp [serving]) rfl)
  have r2 := r1.act 0 _ _ rfl
    (.driveOk _ _ ⟨0, .nextState, .readyOk⟩ (by simp [serving, setPhase]) rfl)
  have r3 := r2.act 0 _ _ rfl (.incrYes _ _ _ rfl)
  have r4 := r3.act 0 _ _ rfl (.arm _ _ _ rfl)
  have r5 := r4.act 0 _ _ rfl (.handle _ _ _ rfl)
  have r6 := r5.step (.finished _ ⟨0, .nextState, .finishing⟩ (by simp [serving, setPhase]) rfl)
  have r7 := r6.act 0 _ _ rfl
    (.driveClose _ _ ⟨0, .nextState, .finished⟩ (by simp [serving, setPhase]) (.inr rfl))
  have r8 := r7.act 0 _ _ rfl (.free _ _ _ (by simp [serving, setPhase]))
  have r9 := r8.act 0 _ _ rfl (.decr _ _)
  refine ⟨_, r9, ?_, rfl, rfl, rfl, rfl, rfl⟩
  intro acts ha a hb
  simp [serving] at ha
  subst ha
  simpa using hb

end Mozolm.Server
