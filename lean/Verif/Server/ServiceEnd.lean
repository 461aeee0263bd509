import Verif.Server.ServiceLemmas
import Verif.Props.ServerShutdown

/-! # The service comes to rest, with everything answered -/

namespace Mozolm.Server
open Mozolm.Hub

variable {A : Arith} {σ : Type} {env : Env A σ} {h0 : Hub A σ}

/-! ## a measure that every step of the server decreases -/

def phaseEffort : Phase → Nat
  | .armed => 5
  | .readyOk => 14
  | .readyFail => 4
  | .processing => 5
  | .finishing => 5
  | .finished => 4
  | .closing => 1

def actEffort : Act → Nat
  | .arm _ => 6
  | .incr _ => 7
  | _ => 1

def callsEffort (calls : List Server.Call) : Nat := (calls.map fun c => phaseEffort c.phase).sum

def actsEffort (acts : List Act) : Nat := (acts.map actEffort).sum

/-- an upper bound for the number of steps the server makes by itself -/
def effort (s : Sys) : Nat := callsEffort s.calls + actsEffort s.acts

theorem actsEffort_perm {P Q : List Act} (h : P.Perm Q) : actsEffort P = actsEffort Q := (h.map actEffort).sum_nat

theorem actsEffort_append (P Q : List Act) : actsEffort (P ++ Q) = actsEffort P + actsEffort Q := by simp [actsEffort]

theorem actsEffort_cons (a : Act) (P : List Act) : actsEffort (a :: P) = actEffort a + actsEffort P := by simp [actsEffort]

theorem callsEffort_cons (c : Server.Call) (cs : List Server.Call) : callsEffort (c :: cs) = phaseEffort c.phase + callsEffort cs := by
  simp [callsEffort]

theorem callsEffort_set {calls : List Server.Call} (hn : (calls.map Call.id).Nodup) {id : Nat} {p : Phase}
    (h : At calls id p) (q : Phase) : callsEffort (setPhase calls id q) + phaseEffort p = callsEffort calls + phaseEffort q := by
  induction calls with
  | nil => exact absurd h no_call
  | cons c cs ih =>
    simp only [List.map_cons, List.nodup_cons] at hn
    obtain ⟨a, a1, a2, a3⟩ := h
    rcases List.mem_cons.1 a1 with rfl | a1
    · have e : setPhase (a :: cs) id q = { a with phase := q } :: cs := by
        have := setPhase_absent (id := id) (by rw [← a2]; exact hn.1) q
        simp only [setPhase, List.map_cons] at this ⊢
        rw [if_pos a2, this]
      rw [e, callsEffort_cons, callsEffort_cons, a3]
      simp only
      omega
    · have hne : c.id ≠ id := fun e => hn.1 (List.mem_map.2 ⟨a, a1, a2.trans e.symm⟩)
      have e : setPhase (c :: cs) id q = c :: setPhase cs id q := by
        simp only [setPhase, List.map_cons]
        rw [if_neg hne]
      have := ih hn.2 ⟨a, a1, a2, a3⟩
      rw [e, callsEffort_cons, callsEffort_cons]
      omega

theorem callsEffort_remove (calls : List Server.Call) (id : Nat) : callsEffort (removeCall calls id) ≤ callsEffort calls := by
  induction calls with
  | nil => exact Nat.le_refl _
  | cons c cs ih =>
    simp only [removeCall, List.filter_cons] at ih ⊢
    split
    · rw [callsEffort_cons, callsEffort_cons]; omega
    · rw [callsEffort_cons]; omega

theorem ActStep.effort {s s' : Sys} {acts acts' R : List Act} (h : ActStep s acts s' acts') (hc : Core s (acts ++ R)) :
    callsEffort s'.calls + actsEffort acts' < callsEffort s.calls + actsEffort acts := by
  cases h with
  | buildLate rest | buildFail rest | flagNone rest =>
    rw [actsEffort_cons]
    have h0 : actsEffort [] = 0 := rfl
    simp only [actEffort]
    omega
  | incrYes k rest hx =>
    simp only [actsEffort_cons, actEffort]
    omega
  | arm k rest hq =>
    rw [actsEffort_cons]
    simp only [actEffort, callsEffort, List.map_append, List.map_cons, List.map_nil, List.sum_append, List.sum_cons, List.sum_nil,
      phaseEffort]
    omega
  | handle id rest hq =>
    have hat : At s.calls id .processing := by
      rcases hc.ch id with ⟨_, b⟩ | ⟨a, _⟩
      · exact b
      · simp at a
    have := callsEffort_set hc.nodup hat .finishing
    rw [actsEffort_cons]
    simp only [actEffort, phaseEffort] at this ⊢
    omega
  | free id rest hl =>
    have := callsEffort_remove s.calls id
    rw [actsEffort_cons]
    simp only [actEffort]
    omega
  | driveOk rest c h1 h2 =>
    have := callsEffort_set hc.nodup ⟨c, h1, rfl, h2⟩ .processing
    simp only [actsEffort_cons, actEffort, phaseEffort] at this ⊢
    omega
  | driveClose rest c h1 h2 =>
    have h3 := callsEffort_set hc.nodup (p := c.phase) ⟨c, h1, rfl, rfl⟩ .closing
    rcases h2 with h2 | h2 <;> rw [h2] at h3 <;>
      simp only [actsEffort_cons, actEffort, phaseEffort] at h3 ⊢ <;> omega
  | _ =>
    rw [actsEffort_cons]
    simp only [actEffort]
    omega

theorem thread_effort {s s' : Sys} (h : Reachable s) {t : Nat} {acts acts' : List Act} (ht : s.threads[t]? = some acts)
    (ha : ActStep s acts s' acts') : effort { s' with threads := s.threads.set t acts' } < effort s := by
  obtain ⟨R, hR1, hR2⟩ := flatten_set ht
  have := ha.effort (h.inv.core.perm hR1)
  have e1 : actsEffort s.acts = actsEffort acts + actsEffort R := by
    rw [Sys.acts, actsEffort_perm hR1, actsEffort_append]
  have e2 : actsEffort (s.threads.set t acts').flatten = actsEffort acts' + actsEffort R := by
    rw [actsEffort_perm (hR2 acts'), actsEffort_append]
  simp only [Server.effort, Sys.acts] at e1 ⊢
  rw [e1, e2]
  omega

/-! ## steps of the server by itself -/

/-- A step that needs no client and no call of `Shutdown`: the log grows by the handling of a request at most. -/
def Inner (w w' : World A σ) : Prop :=
  w'.sys.threads.length = w.sys.threads.length ∧ w'.sys ≠ w.sys ∧ ∀ e ∈ w'.log, e ∈ w.log ∨ ∃ t r a, e = .handled t r a

theorem inner_effort {w w' : World A σ} (hr : Reachable w.sys) (hs : WStep env w w') (hi : Inner w w') :
    effort w'.sys < effort w.sys := by
  obtain ⟨hl, hne, hlog⟩ := hi
  cases hs with
  | send t r h => exact absurd rfl hne
  | arrive t r c h1 h2 h3 h4 h5 h6 =>
    rcases hlog (.arrived t c.id) (by simp) with h | ⟨_, _, _, h⟩
    · exact absurd h (h2 _)
    · cases h
  | handle n id rest t r a hub' h1 h2 h3 h4 h5 => exact thread_effort hr h1 (.handle _ _ _ h2)
  | server s h1 h2 h3 =>
    cases h1 with
    | thread s1 t acts acts' ht ha => exact thread_effort hr ht ha
    | callShutdown => simp at hl
    | arrive c k1 k2 k3 =>
      exfalso
      have := h3 c.id (setPhase_at.2 (.inl ⟨rfl, rfl, c, k2, rfl⟩))
      cases at_unique hr.inv.core.nodup this ⟨c, k2, rfl, k3⟩
    | cancel c k1 k2 k3 =>
      have := callsEffort_set hr.inv.core.nodup ⟨c, k2, rfl, k3⟩ .readyFail
      simp only [effort, phaseEffort, Sys.acts] at this ⊢
      omega
    | finished c k2 k3 =>
      have := callsEffort_set hr.inv.core.nodup ⟨c, k2, rfl, k3⟩ .finished
      simp only [effort, phaseEffort, Sys.acts] at this ⊢
      omega
  | get t r a h => exact absurd rfl hne
  | fail t r h => exact absurd rfl hne

/-- The server has nothing to do by itself. -/
def AtRest (env : Env A σ) (w : World A σ) : Prop := ∀ w', WStep env w w' → ¬ Inner w w'

/-- A step of a thread that handles nothing is a step of the service. -/
theorem quiet_step {s s' : Sys} {acts acts' : List Act} (ha : ActStep s acts s' acts') (hh : ∀ id rest, acts ≠ .handle id :: rest) :
    s'.replied = s.replied ∧ ∀ id, At s'.calls id .readyOk → At s.calls id .readyOk := by
  have set : ∀ (i : Nat) (q : Phase), q ≠ .readyOk → ∀ id, At (setPhase s.calls i q) id .readyOk → At s.calls id .readyOk := by
    intro i q hq id h
    rcases setPhase_at.1 h with ⟨_, h2, _⟩ | ⟨_, h2⟩
    · exact absurd h2.symm hq
    · exact h2
  cases ha with
  | handle id rest => exact absurd rfl (hh _ _)
  | arm k rest hq =>
    refine ⟨rfl, fun id => ?_⟩
    rintro ⟨c, h1, h2, h3⟩
    rcases List.mem_append.1 h1 with h1 | h1
    · exact ⟨c, h1, h2, h3⟩
    · rw [List.mem_singleton] at h1; subst h1; cases h3
  | free id rest hl => exact ⟨rfl, fun id h => (removeCall_at.1 h).2⟩
  | driveOk rest c h1 h2 => exact ⟨rfl, set _ _ (by simp)⟩
  | driveClose rest c h1 h2 => exact ⟨rfl, set _ _ (by simp)⟩
  | _ => exact ⟨rfl, fun _ h => h⟩

theorem rest_act {w : World A σ} (hr : Reachable w.sys) (hq : AtRest env w) {t : Nat} {acts acts' : List Act} {s' : Sys}
    (ht : w.sys.threads[t]? = some acts) (ha : ActStep w.sys acts s' acts') (hh : ∀ id rest, acts ≠ .handle id :: rest) : False := by
  obtain ⟨h1, h2⟩ := quiet_step ha hh
  have heff := thread_effort hr ht ha
  refine hq _ (.server w _ (.thread _ _ t acts acts' ht ha) h1 h2) ⟨by simp, fun e => ?_, fun e he => .inl he⟩
  simp only at e
  rw [e] at heff
  omega

/-- What the threads can be waiting for. -/
theorem rest_head {w : World A σ} (hw : WReach env h0 w) (hq : AtRest env w) (hcr : ¬ RequestAfterShutdown w.sys)
    (htot : ∀ t r, .sent t r ∈ w.log → ∃ a h', answer env w.hub r = .ok (a, h')) {acts : List Act} (hm : acts ∈ w.sys.threads) :
    acts = [] ∨ acts = [.drive] ∨ ∃ rest, acts = .downWait :: rest := by
  have h := hw.reachable
  obtain ⟨t, ht0, rfl⟩ := List.getElem_of_mem hm
  have ht : w.sys.threads[t]? = some w.sys.threads[t] := List.getElem?_eq_getElem ht0
  generalize he : w.sys.threads[t] = acts at *
  cases acts with
  | nil => exact .inl rfl
  | cons a rest =>
    have np := fun {s' acts'} (ha : ActStep w.sys (a :: rest) s' acts') hh => rest_act h hq ht ha hh
    cases a with
    | build =>
      by_cases e : w.sys.shutdown = true
      · exact (np (.buildLate _ _ e) (by simp)).elim
      · exact (np (.buildFail _ _ (by simpa using e)) (by simp)).elim
    | incr k =>
      by_cases e : w.sys.shutdown = true
      · exact (np (.incrNo _ _ _ e) (by simp)).elim
      · exact (np (.incrYes _ _ _ (by simpa using e)) (by simp)).elim
    | arm k =>
      by_cases e : w.sys.cqShut = true
      · exact (hcr ⟨t, k, rest, ht, e⟩).elim
      · exact (np (.arm _ _ _ (by simpa using e)) (by simp)).elim
    | handle id =>
      exfalso
      have e : w.sys.cqShut = false := by
        apply Bool.eq_false_iff.2
        intro e
        exact C39_no_reply_after_shutdown _ h ⟨t, id, rest, ht, e⟩
      obtain ⟨hat, hnr⟩ := handle_at h ht
      obtain ⟨t', g1⟩ := hw.winv.bound id (.inr (h.inv.core.prc id hat))
      obtain ⟨p, q, g2⟩ := List.append_of_mem g1
      obtain ⟨r, g3⟩ := hw.winv.ordered.arrived _ _ _ _ g2
      have g3 : .sent t' r ∈ w.log := by rw [g2]; simp [g3]
      obtain ⟨a, h', g4⟩ := htot t' r g3
      refine hq _ (.handle w t id rest t' r a h' ht e g1 g3 g4) ⟨by simp, fun hx => ?_, fun ev hev => ?_⟩
      · have := congrArg (fun s => s.replied.length) hx
        simp at this
      · simp only [List.mem_append, List.mem_singleton] at hev
        exact hev.imp_right fun e => ⟨_, _, _, e⟩
    | free id =>
      by_cases e : ∃ c ∈ w.sys.calls, c.id = id
      · exact (np (.free _ _ _ e) (by simp)).elim
      · exact (C38_no_double_free _ h ⟨t, id, rest, ht, e⟩).elim
    | decr => exact (np (.decr _ _) (by simp)).elim
    | drive =>
      have := h.prog.last _ hm
      simp only [lastOk, List.isEmpty_iff] at this
      exact .inr (.inl (by rw [this]))
    | setFlag =>
      by_cases e : w.sys.started = true
      · exact (np (.flag _ _ e) (by simp)).elim
      · exact (np (.flagNone _ _ (by simpa using e)) (by simp)).elim
    | downBegin => exact (np (.downBegin _ _) (by simp)).elim
    | downWait => exact .inr (.inr ⟨rest, rfl⟩)
    | wait =>
      by_cases e : w.sys.started = true
      · exact (np (.wait _ _ (h.prog.note e)) (by simp)).elim
      · rcases (h.prog.idle (by simpa using e)).2 _ hm with x | x | x <;>
          simp [runProgram, shutdownProgram] at x
    | cqShutdown => exact (np (.cqShutdown _ _) (by simp)).elim

/-- At rest no request waits. -/
theorem rest_taken {w : World A σ} (hw : WReach env h0 w) (hq : AtRest env w) (hcr : ¬ RequestAfterShutdown w.sys)
    (htot : ∀ t r, .sent t r ∈ w.log → ∃ a h', answer env w.hub r = .ok (a, h')) {id : Nat} (ht : Taken w.sys id) : id ∈ w.sys.replied := by
  have h := hw.reachable
  rcases ht with ht | ht
  · exfalso
    have hst : w.sys.started = true := by
      apply Classical.byContradiction
      intro e
      have := (h.prog.idle (by simpa using e)).1
      rw [this] at ht
      exact no_call ht
    rcases h.prog.driver hst with ⟨acts, hm, d1, d2, d3⟩ | ⟨hc, _⟩
    · rcases rest_head hw hq hcr htot hm with rfl | rfl | ⟨rest, rfl⟩
      · simp at d1
      · obtain ⟨t, ht0, he⟩ := List.getElem_of_mem hm
        have hti : w.sys.threads[t]? = some [.drive] := by rw [List.getElem?_eq_getElem ht0, he]
        obtain ⟨c, c1, c2, c3⟩ := ht
        exact rest_act h hq hti (.driveOk _ _ c c1 c3) (by simp)
      · simp [isShut] at d2
    · exact ((h.inv.ctl.shut hc).2.2 id).1 ht
  · rcases (h.inv.core.acc id ht).2 with b | b
    · exact b
    · exfalso
      rcases h.inv.core.ch id with ⟨x, _⟩ | ⟨_, x⟩
      · have hm : Act.handle id ∈ w.sys.acts := List.count_pos_iff.1 (by omega)
        obtain ⟨l, h1, h2⟩ := List.mem_flatten.1 hm
        rcases rest_head hw hq hcr htot h1 with rfl | rfl | ⟨rest, rfl⟩
        · simp at h2
        · simp at h2
        · have := h.inv.ctl.shape _ h1 (by simp [isShut])
          cases this
          simp at h2
      · exact x b

end Mozolm.Server
