import Verif.Server.LifecycleStep

/-! # Shutdown comes to an end: measure and progress invariant -/

namespace Mozolm.Server

/-! ## a measure that every step decreases once the shutdown flag is set -/

def phaseWeight : Phase → Nat
  | .armed => 20
  | .readyOk => 19
  | .readyFail => 15
  | .processing => 16
  | .finishing => 16
  | .finished => 15
  | .closing => 12

def actWeight : Act → Nat
  | .arm _ => 21
  | _ => 1

def callsWeight (calls : List Call) : Nat := (calls.map fun c => phaseWeight c.phase).sum

def actsWeight (acts : List Act) : Nat := (acts.map actWeight).sum

/-- an upper bound for the number of steps to go -/
def work (s : Sys) : Nat := callsWeight s.calls + actsWeight s.acts

theorem actsWeight_perm {A B : List Act} (h : A.Perm B) : actsWeight A = actsWeight B :=
  (h.map actWeight).sum_nat

theorem actsWeight_append (A B : List Act) : actsWeight (A ++ B) = actsWeight A + actsWeight B := by
  simp [actsWeight]

theorem actsWeight_cons (a : Act) (A : List Act) :
    actsWeight (a :: A) = actWeight a + actsWeight A := by simp [actsWeight]

theorem callsWeight_cons (c : Call) (cs : List Call) :
    callsWeight (c :: cs) = phaseWeight c.phase + callsWeight cs := by simp [callsWeight]

theorem setPhase_absent {calls : List Call} {id : Nat} (h : id ∉ calls.map Call.id) (q : Phase) :
    setPhase calls id q = calls := by
  rw [setPhase]
  conv => rhs; rw [← List.map_id calls]
  apply List.map_congr_left
  intro c hc
  rw [if_neg]
  · rfl
  · intro e; exact h (List.mem_map.2 ⟨c, hc, e⟩)

theorem removeCall_absent {calls : List Call} {id : Nat} (h : id ∉ calls.map Call.id) :
    removeCall calls id = calls := by
  apply List.filter_eq_self.2
  intro c hc
  simp only [decide_eq_true_eq]
  intro e; exact h (List.mem_map.2 ⟨c, hc, e⟩)

theorem callsWeight_set {calls : List Call} (hn : (calls.map Call.id).Nodup) {id : Nat} {p : Phase}
    (h : At calls id p) (q : Phase) :
    callsWeight (setPhase calls id q) + phaseWeight p = callsWeight calls + phaseWeight q := by
  induction calls with
  | nil => exact absurd h no_call
  | cons c cs ih =>
    simp only [List.map_cons, List.nodup_cons] at hn
    by_cases e : c.id = id
    · have hp : c.phase = p := by
        obtain ⟨a, h1, h2, h3⟩ := h
        simp only [List.mem_cons] at h1
        rcases h1 with rfl | h1
        · exact h3
        · exact absurd (List.mem_map.2 ⟨a, h1, h2.trans e.symm⟩) hn.1
      have hs : setPhase cs id q = cs := setPhase_absent (by rw [← e]; exact hn.1) q
      have : setPhase (c :: cs) id q = { c with phase := q } :: setPhase cs id q := by
        simp [setPhase, e]
      rw [this, hs, callsWeight_cons, callsWeight_cons, hp]
      simp only
      omega
    · have h' : At cs id p := by
        obtain ⟨a, h1, h2, h3⟩ := h
        simp only [List.mem_cons] at h1
        rcases h1 with rfl | h1
        · exact absurd h2 e
        · exact ⟨a, h1, h2, h3⟩
      have : setPhase (c :: cs) id q = c :: setPhase cs id q := by simp [setPhase, e]
      rw [this, callsWeight_cons, callsWeight_cons]
      have := ih hn.2 h'
      omega

theorem callsWeight_remove (calls : List Call) (id : Nat) :
    callsWeight (removeCall calls id) ≤ callsWeight calls := by
  induction calls with
  | nil => exact Nat.le_refl _
  | cons c cs ih =>
    by_cases e : c.id = id
    · have : removeCall (c :: cs) id = removeCall cs id := by simp [removeCall, e]
      rw [this, callsWeight_cons]; omega
    · have : removeCall (c :: cs) id = c :: removeCall cs id := by simp [removeCall, e]
      rw [this, callsWeight_cons, callsWeight_cons]; omega

/-- A step of a thread uses up work once the flag is set. -/
theorem ActStep.work {s s' : Sys} {acts acts' R : List Act} (h : ActStep s acts s' acts')
    (hc : Core s (acts ++ R)) (hf : s.shutdown = true) :
    callsWeight s'.calls + actsWeight acts' < callsWeight s.calls + actsWeight acts := by
  cases h with
  | buildLate rest | flagNone rest =>
    rw [actsWeight_cons]
    have h0 : actsWeight [] = 0 := rfl
    simp only [actWeight]
    omega
  | buildFail _ hx | buildOk _ hx | incrYes _ _ hx => rw [hf] at hx; cases hx
  | arm k rest hq =>
    rw [actsWeight_cons]
    simp only [actWeight, callsWeight, List.map_append, List.map_cons, List.map_nil,
      List.sum_append, List.sum_cons, List.sum_nil, phaseWeight]
    omega
  | handle id rest hq =>
    have hch := hc.ch id
    have hat : At s.calls id .processing := by
      rcases hch with ⟨_, b⟩ | ⟨a, _⟩
      · exact b
      · simp at a
    have := callsWeight_set hc.nodup hat .finishing
    rw [actsWeight_cons]
    simp only [actWeight, phaseWeight] at this ⊢
    omega
  | free id rest hl =>
    have := callsWeight_remove s.calls id
    rw [actsWeight_cons]
    simp only [actWeight]
    omega
  | driveOk rest c h1 h2 =>
    have := callsWeight_set hc.nodup ⟨c, h1, rfl, h2⟩ .processing
    simp only [actsWeight_cons, actWeight, phaseWeight] at this ⊢
    omega
  | driveClose rest c h1 h2 =>
    have h3 := callsWeight_set hc.nodup (p := c.phase) ⟨c, h1, rfl, rfl⟩ .closing
    rcases h2 with h2 | h2 <;> rw [h2] at h3 <;>
      simp only [actsWeight_cons, actWeight, phaseWeight] at h3 ⊢ <;> omega
  | _ =>
    rw [actsWeight_cons]
    simp only [actWeight]
    omega

/-! ## who is still there -/

/-- a thread that will look for events until the queue is shut down -/
def Driver (acts : List Act) : Prop :=
  Act.drive ∈ acts ∧ acts.any isShut = false ∧ Act.build ∉ acts

/-- `Shutdown` past its first block -/
def Stopping (acts : List Act) : Prop := acts.any isShut = true ∧ Act.setFlag ∉ acts

/-- `DriveCQ` is the last thing a thread does -/
def lastOk : List Act → Bool
  | [] => true
  | .drive :: rest => rest.isEmpty
  | _ :: rest => lastOk rest

theorem lastOk_tail {a : Act} {rest : List Act} (h : lastOk (a :: rest) = true) :
    lastOk rest = true := by
  cases a <;> simp_all [lastOk]

theorem lastOk_cons {a : Act} {rest : List Act} (ha : a ≠ .drive) (h : lastOk rest = true) :
    lastOk (a :: rest) = true := by
  cases a <;> simp_all [lastOk]

structure Prog (s : Sys) : Prop where
  last : ∀ acts ∈ s.threads, lastOk acts = true
  note : s.started = true → s.notified = true
  idle : s.started = false → s.calls = [] ∧
    ∀ acts ∈ s.threads, acts = runProgram ∨ acts = shutdownProgram ∨ acts = []
  driver : s.started = true → (∃ acts ∈ s.threads, Driver acts) ∨
    (s.cqShut = true ∧ ∀ c ∈ s.calls, c.phase = .closing)
  stopping : s.started = true → s.shutdown = true → s.cqShut = true ∨ ∃ acts ∈ s.threads, Stopping acts

theorem Prog.init : Prog Sys.init where
  last := by
    intro acts h
    simp only [Sys.init, List.mem_singleton] at h
    subst h
    rfl
  note := by intro h; cases h
  idle := fun _ => ⟨rfl, by intro a h; left; simpa [Sys.init] using h⟩
  driver := by intro h; cases h
  stopping := by intro h; cases h

theorem ActStep.last {s s' : Sys} {acts acts' : List Act} (h : ActStep s acts s' acts')
    (hl : lastOk acts = true) : lastOk acts' = true := by
  cases h with
  | buildLate | buildFail | flagNone => rfl
  | incrYes k rest => exact lastOk_cons (by simp) (lastOk_tail hl)
  | driveOk rest => exact lastOk_cons (by simp) (lastOk_cons (by simp) hl)
  | driveClose rest => exact lastOk_cons (by simp) (lastOk_cons (by simp) hl)
  | _ => exact lastOk_tail hl

theorem ActStep.started {s s' : Sys} {acts acts' : List Act} (h : ActStep s acts s' acts')
    (hn : s'.started = false) : s.started = false ∧ (s'.calls = s.calls ∨ ∃ a rest, acts = a :: rest ∧
      a ≠ .build ∧ a ≠ .setFlag) := by
  cases h with
  | buildOk => simp at hn
  | buildLate | buildFail => exact ⟨hn, .inl rfl⟩
  | flagNone => exact ⟨hn, .inl rfl⟩
  | flag rest hx => rw [hn] at hx; cases hx
  | _ => exact ⟨hn, .inr ⟨_, _, rfl, by simp, by simp⟩⟩

/-- the driver's own step -/
theorem ActStep.driver {s s' : Sys} {acts acts' : List Act} (h : ActStep s acts s' acts')
    (hs : Shaped acts) (hl : lastOk acts = true) (hq : s.cqShut = true → Quiet s) (hd : Driver acts) :
    Driver acts' ∨ (s'.cqShut = true ∧ ∀ c ∈ s'.calls, c.phase = .closing) := by
  have go : ∀ {a : Act} {rest : List Act}, acts = a :: rest → isShut a = false → a ≠ .build →
      a ≠ .drive → (acts'.any isShut = true → rest.any isShut = true) →
      (Act.build ∈ acts' → Act.build ∈ rest) → (Act.drive ∈ rest → Act.drive ∈ acts') →
      Driver acts' ∨ (s'.cqShut = true ∧ ∀ c ∈ s'.calls, c.phase = .closing) := by
    intro a rest e ha hb hdr h1 h2 h3
    subst e
    obtain ⟨x, y⟩ := hs.tail ha hb h1 h2
    refine .inl ⟨h3 ?_, y, fun hm => hd.2.2 (List.mem_cons_of_mem _ (h2 hm))⟩
    have := hd.1
    simp only [List.mem_cons] at this
    rcases this with e | h
    · exact absurd e.symm hdr
    · exact h
  cases h with
  | buildLate | buildFail | buildOk => exact absurd (by simp) hd.2.2
  | flagNone | flag | downBegin | downWait | wait | cqShutdown =>
    have := hd.2.1; simp [isShut] at this
  | incrNo => exact go rfl rfl (by simp) (by simp) id id id
  | incrYes => exact go rfl rfl (by simp) (by simp) (by simp [isShut]) (by simp) (by simp)
  | arm => exact go rfl rfl (by simp) (by simp) id id id
  | handle => exact go rfl rfl (by simp) (by simp) id id id
  | free => exact go rfl rfl (by simp) (by simp) id id id
  | decr => exact go rfl rfl (by simp) (by simp) id id id
  | driveOk =>
    refine .inl ⟨by simp, ?_, ?_⟩
    · have := hd.2.1; simpa [isShut] using this
    · have := hd.2.2; simpa using this
  | driveClose =>
    refine .inl ⟨by simp, ?_, ?_⟩
    · have := hd.2.1; simpa [isShut] using this
    · have := hd.2.2; simpa using this
  | driveEnd rest h1 h2 =>
    refine .inr ⟨h1, fun c hc => ?_⟩
    rcases h2 c hc with e | e
    · exact absurd ⟨c, hc, rfl, e⟩ ((hq h1).2 c.id).2
    · exact e

/-- once the queue is shut down and only clean-ups are left, that stays so -/
theorem ActStep.closing {s s' : Sys} {acts acts' R : List Act} (h : ActStep s acts s' acts')
    (hc : Core s (acts ++ R)) (hq : s.cqShut = true) (ha : ∀ c ∈ s.calls, c.phase = .closing) :
    s'.cqShut = true ∧ ∀ c ∈ s'.calls, c.phase = .closing := by
  cases h with
  | arm k rest hx | handle id rest hx => rw [hq] at hx; cases hx
  | free id rest => exact ⟨hq, fun c h => ha c (List.mem_filter.1 h).1⟩
  | driveOk rest c h1 h2 => have := ha c h1; rw [h2] at this; cases this
  | driveClose rest c h1 h2 =>
    have := ha c h1
    rcases h2 with h2 | h2 <;> rw [h2] at this <;> cases this
  | cqShutdown => exact ⟨rfl, ha⟩
  | _ => exact ⟨hq, ha⟩

theorem mem_set_or {l : List (List Act)} {t : Nat} {a b : List Act} (h : l[t]? = some a)
    {x : List Act} (hx : x ∈ l) : x = a ∨ x ∈ l.set t b := by
  obtain ⟨i, hi, rfl⟩ := List.getElem_of_mem hx
  by_cases e : i = t
  · subst e
    left
    rw [List.getElem?_eq_getElem hi] at h
    exact Option.some.inj h
  · right
    have : (l.set t b)[i]? = some l[i] := by
      rw [List.getElem?_set_ne (fun h => e h.symm), List.getElem?_eq_getElem hi]
    exact List.mem_of_getElem? this

theorem set_mem {l : List (List Act)} {t : Nat} {a b : List Act} (h : l[t]? = some a) :
    b ∈ l.set t b := by
  obtain ⟨hi, _⟩ := List.getElem?_eq_some_iff.1 h
  exact List.mem_of_getElem? (i := t) (by rw [List.getElem?_set_self hi])

theorem Prog.thread {s s' : Sys} {t : Nat} {acts acts' : List Act} (hI : Inv s) (h : Prog s)
    (ht : s.threads[t]? = some acts) (hst : ActStep s acts s' acts') :
    Prog { s' with threads := s.threads.set t acts' } := by
  obtain ⟨R, hR1, hR2⟩ := flatten_set ht
  have hmem : acts ∈ s.threads := List.mem_of_getElem? ht
  have hsh : Shaped acts := ⟨hI.ctl.shape acts hmem, hI.ctl.run acts hmem⟩
  have hcore : Core s (acts ++ R) := hI.core.perm hR1
  have hl := h.last acts hmem
  refine ⟨?_, ?_, ?_, ?_, ?_⟩
  · intro a ha
    rcases List.mem_or_eq_of_mem_set ha with ha | rfl
    · exact h.last a ha
    · exact hst.last hl
  · intro hs
    simp only at hs ⊢
    have hm := hst.mono.notified
    cases hst with
    | buildOk => rfl
    | _ => exact hm (h.note hs)
  · intro hs
    simp only at hs ⊢
    obtain ⟨h1, h2⟩ := hst.started hs
    obtain ⟨h3, h4⟩ := h.idle h1
    have hh := h4 acts hmem
    have : s'.calls = [] ∧ acts' = [] := by
      rcases hh with rfl | rfl | rfl
      · cases hst with
        | buildLate | buildFail => exact ⟨h3, rfl⟩
        | buildOk => simp at hs
      · cases hst with
        | flagNone => exact ⟨h3, rfl⟩
        | flag _ hx => rw [h1] at hx; cases hx
      · cases hst
    refine ⟨this.1, fun a ha => ?_⟩
    rcases List.mem_or_eq_of_mem_set ha with ha | rfl
    · exact h4 a ha
    · exact .inr (.inr this.2)
  · intro hs
    simp only at hs ⊢
    by_cases hs0 : s.started = true
    · rcases h.driver hs0 with ⟨d, hd1, hd2⟩ | ⟨hq, ha⟩
      · rcases mem_set_or (b := acts') ht hd1 with rfl | hd
        · rcases hst.driver hsh hl (fun hq => (hI.ctl.shut hq).2) hd2 with x | x
          · exact .inl ⟨_, set_mem ht, x⟩
          · exact .inr x
        · exact .inl ⟨d, hd, hd2⟩
      · exact .inr (hst.closing hcore hq ha)
    · cases hst with
      | buildOk rest =>
        left
        have hr := hsh.run (by simp)
        simp only [runProgram, List.cons.injEq] at hr
        obtain ⟨_, rfl⟩ := hr
        exact ⟨_, set_mem ht, by simp, by simp [isShut], by simp⟩
      | flag rest hx => exact absurd hx hs0
      | _ => exact absurd hs hs0
  · intro hs hf
    simp only at hs hf ⊢
    have keep : s.started = true → s.shutdown = true → s'.cqShut = s.cqShut →
        (Stopping acts → Stopping acts') →
        s'.cqShut = true ∨ ∃ acts ∈ s.threads.set t acts', Stopping acts := by
      intro h1 h2 e hk
      rcases h.stopping h1 h2 with hq | ⟨d, hd1, hd2⟩
      · exact .inl (e.trans hq)
      · rcases mem_set_or (b := acts') ht hd1 with rfl | hd
        · exact .inr ⟨_, set_mem ht, hk hd2⟩
        · exact .inr ⟨d, hd, hd2⟩
    have nostop : ∀ {a : Act} {rest : List Act}, acts = a :: rest → isShut a = false →
        Stopping acts → False := by
      rintro a rest rfl ha ⟨h1, _⟩
      have := hsh.shape h1
      cases this <;> simp [isShut] at ha
    cases hst with
    | cqShutdown => exact .inl rfl
    | flagNone rest hx => exact absurd hs (by rw [hx]; decide)
    | buildLate rest hx =>
      have hr := hsh.run (by simp)
      exact keep hs hf rfl (fun hk => (nostop rfl rfl hk).elim)
    | buildFail rest hx | buildOk rest hx => rw [hx] at hf; cases hf
    | flag rest =>
      have := hsh.shape (by simp [isShut])
      cases this
      exact .inr ⟨_, set_mem ht, by simp [isShut], by simp⟩
    | downBegin rest =>
      have := hsh.shape (by simp [isShut])
      cases this
      exact keep hs hf rfl (fun _ => ⟨by simp [isShut], by simp⟩)
    | downWait rest =>
      have := hsh.shape (by simp [isShut])
      cases this
      exact keep hs hf rfl (fun _ => ⟨by simp [isShut], by simp⟩)
    | wait rest =>
      have := hsh.shape (by simp [isShut])
      cases this
      exact keep hs hf rfl (fun _ => ⟨by simp [isShut], by simp⟩)
    | _ => exact keep hs hf rfl (fun hk => (nostop rfl rfl hk).elim)

theorem Prog.env {s : Sys} (h : Prog s) {c : Call} {q : Phase} (hm : c ∈ s.calls)
    (hp : c.phase ≠ .closing) : Prog { s with calls := setPhase s.calls c.id q } := by
  refine ⟨h.last, h.note, ?_, ?_, h.stopping⟩
  · intro hs
    have := (h.idle hs).1
    rw [this] at hm; simp at hm
  · intro hs
    rcases h.driver hs with x | ⟨_, x⟩
    · exact .inl x
    · exact absurd (x c hm) hp

theorem Prog.step {s s' : Sys} (hI : Inv s) (h : Prog s) (hst : Step s s') : Prog s' := by
  cases hst with
  | thread s1 t acts acts' ht ha => exact h.thread hI ht ha
  | callShutdown =>
    refine ⟨?_, h.note, ?_, ?_, ?_⟩
    · intro a ha
      rcases List.mem_append.1 ha with ha | ha
      · exact h.last a ha
      · simp only [List.mem_singleton] at ha; subst ha; rfl
    · intro hs
      refine ⟨(h.idle hs).1, fun a ha => ?_⟩
      rcases List.mem_append.1 ha with ha | ha
      · exact (h.idle hs).2 a ha
      · simp only [List.mem_singleton] at ha; exact .inr (.inl ha)
    · intro hs
      rcases h.driver hs with ⟨d, x, y⟩ | x
      · exact .inl ⟨d, List.mem_append_left _ x, y⟩
      · exact .inr x
    · intro hs hf
      rcases h.stopping hs hf with x | ⟨d, x, y⟩
      · exact .inl x
      · exact .inr ⟨d, List.mem_append_left _ x, y⟩
  | arrive c h1 h2 h3 => exact h.env h2 (by rw [h3]; decide)
  | cancel c h1 h2 h3 => exact h.env h2 (by rw [h3]; decide)
  | finished c h2 h3 => exact h.env h2 (by rw [h3]; decide)

theorem Reachable.prog {s : Sys} (h : Reachable s) : Prog s := by
  induction h with
  | init => exact Prog.init
  | step hr hs ih => exact ih.step hr.inv hs

end Mozolm.Server
