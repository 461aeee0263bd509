import Verif.Props.SystemService
import Verif.Props.SystemPairsDemo

/-! # C85, C86: concrete histories of the service -/

namespace Mozolm.Server
open Mozolm.Hub

variable {A : Arith} {σ : Type} {env : Env A σ} {h0 : Hub A σ}

/-- a step of a thread that handles nothing -/
theorem WReach.act {w : World A σ} (h : WReach env h0 w) (t : Nat) (acts acts' : List Act) {s' : Sys}
    (ht : w.sys.threads[t]? = some acts) (ha : ActStep w.sys acts s' acts') (hh : ∀ id rest, acts ≠ .handle id :: rest) :
    WReach env h0 { w with sys := { s' with threads := w.sys.threads.set t acts' } } := by
  obtain ⟨h1, h2⟩ := quiet_step ha hh
  exact h.step (.server w _ (.thread _ _ t acts acts' ht ha) h1 h2)

/-- the server has started and waits for requests -/
theorem wreach_serving : WReach env h0 ⟨serving, h0, []⟩ := by
  have r1 := (WReach.start (env := env) (h0 := h0)).act 0 _ _ rfl (.buildOk _ _ rfl) (by simp [runProgram])
  have r2 := r1.act 0 _ _ rfl (.incrYes _ _ _ rfl) (by simp)
  have r3 := r2.act 0 _ _ rfl (.arm _ _ _ rfl) (by simp)
  have r4 := r3.act 0 _ _ rfl (.incrYes _ _ _ rfl) (by simp)
  have r5 := r4.act 0 _ _ rfl (.arm _ _ _ rfl) (by simp)
  have r6 := r5.act 0 _ _ rfl (.incrYes _ _ _ rfl) (by simp)
  exact r6.act 0 _ _ rfl (.arm _ _ _ rfl) (by simp)

/-- the server after an update, waiting for requests -/
def served : Sys :=
  { started := true, shutdown := false, pending := 4, notified := true, serverDown := false,
    cqShut := false, next := 4,
    calls := [⟨0, .nextState, .armed⟩, ⟨1, .lmScores, .armed⟩, ⟨2, .update, .finishing⟩, ⟨3, .update, .armed⟩],
    threads := [[.drive]], accepted := [2], replied := [2], freed := [] }

/-- A client sends an update, the server handles it, and the client's call fails before the answer is there. -/
theorem wreach_lost {s n : Int} {cs : List Int} {a : Answer A.D} {h1 : Hub A σ}
    (he : answer env h0 (.updateLMScores s cs n) = .ok (a, h1)) :
    WReach env h0 ⟨served, h1, [.sent 0 (.updateLMScores s cs n), .arrived 0 2, .handled 0 (.updateLMScores s cs n) a, .failed 0]⟩ := by
  have r1 := (wreach_serving (env := env) (h0 := h0)).step (.send _ 0 (.updateLMScores s cs n) (by simp))
  have r2 := r1.step (.arrive _ 0 (.updateLMScores s cs n) ⟨2, .update, .armed⟩ (by simp) (by simp) rfl (by simp [serving]) rfl rfl)
  have r3 := r2.act 0 _ _ rfl (.driveOk _ _ ⟨2, .update, .readyOk⟩ (by simp [serving, setPhase]) rfl) (by simp)
  have r4 := r3.act 0 _ _ rfl (.incrYes _ _ _ rfl) (by simp)
  have r5 := r4.act 0 _ _ rfl (.arm _ _ _ rfl) (by simp)
  have r6 := r5.step (.handle _ 0 2 _ 0 (.updateLMScores s cs n) a h1 rfl rfl (by simp) (by simp) he)
  exact r6.step (.fail _ 0 (.updateLMScores s cs n) (by simp) ⟨by simp, by simp⟩)

/-- the server after the objects of the call are deleted -/
def rested : Sys :=
  { served with
    pending := 3
    calls := [⟨0, .nextState, .armed⟩, ⟨1, .lmScores, .armed⟩, ⟨3, .update, .armed⟩]
    freed := [2] }

theorem wreach_rested {s n : Int} {cs : List Int} {a : Answer A.D} {h1 : Hub A σ}
    (he : answer env h0 (.updateLMScores s cs n) = .ok (a, h1)) :
    WReach env h0 ⟨rested, h1, [.sent 0 (.updateLMScores s cs n), .arrived 0 2, .handled 0 (.updateLMScores s cs n) a, .failed 0]⟩ := by
  have r1 := (wreach_lost he).step (.server _ _ (.finished _ ⟨2, .update, .finishing⟩ (by simp [served]) rfl) rfl (by
    intro id h
    rcases setPhase_at.1 h with ⟨_, h2, _⟩ | ⟨_, h2⟩
    · cases h2
    · exact h2))
  have r2 := r1.act 0 _ _ rfl (.driveClose _ _ ⟨2, .update, .finished⟩ (by simp [served, setPhase]) (.inr rfl)) (by simp)
  have r3 := r2.act 0 _ _ rfl (.free _ _ _ (by simp [served, setPhase])) (by simp)
  exact r3.act 0 _ _ rfl (.decr _ _) (by simp)

/-- C85: it is at rest, and the request that arrived has been handled. -/
theorem rested_atRest (h : Hub A σ) (log : List (Event A.D)) : AtRest env ⟨rested, h, log⟩ := by
  rintro w' hs ⟨hl, hne, hlog⟩
  have hph : ∀ c ∈ rested.calls, c.phase = .armed := by
    intro c hc
    simp only [rested, List.mem_cons, List.not_mem_nil, or_false] at hc
    rcases hc with rfl | rfl | rfl <;> rfl
  cases hs with
  | send t r h => exact hne rfl
  | arrive t r c h1 h2 h3 h4 h5 h6 =>
    rcases hlog (.arrived t c.id) (by simp) with h | ⟨_, _, _, h⟩
    · exact absurd h (h2 _)
    · cases h
  | handle n id rest t r a hub' h1 h2 h3 h4 h5 =>
    cases n with
    | zero => simp [rested, served] at h1
    | succ n => simp [rested, served] at h1
  | server s h1 h2 h3 =>
    cases h1 with
    | thread s1 t acts acts' ht ha =>
      cases t with
      | zero =>
        have ht' : [Act.drive] = acts := by simpa [rested, served] using ht
        subst ht'
        cases ha with
        | driveOk _ c k1 k2 => rw [hph c k1] at k2; cases k2
        | driveClose _ c k1 k2 => rw [hph c k1] at k2; simp at k2
        | driveEnd _ k1 => cases k1
      | succ t => simp [rested, served] at ht
    | callShutdown => simp at hl
    | arrive c k1 k2 k3 =>
      obtain ⟨c', k4, k5, k6⟩ := h3 c.id (setPhase_at.2 (.inl ⟨rfl, rfl, c, k2, rfl⟩))
      rw [hph c' k4] at k6; cases k6
    | cancel c k1 => cases k1
    | finished c k2 k3 => rw [hph c k2] at k3; cases k3
  | get t r a h => exact hne rfl
  | fail t r h => exact hne rfl

/-- C85: after `Shutdown` of that server the queue is shut down. -/
theorem wreach_down {s n : Int} {cs : List Int} {a : Answer A.D} {h1 : Hub A σ}
    (he : answer env h0 (.updateLMScores s cs n) = .ok (a, h1)) :
    ∃ w, WReach env h0 w ∧ w.sys.cqShut = true ∧ .arrived 0 2 ∈ w.log := by
  have r1 := (wreach_rested he).step (.server _ _ (.callShutdown _) rfl (fun _ h => h))
  have r2 := r1.act 1 _ _ rfl (.flag _ _ rfl) (by simp [shutdownProgram])
  have r3 := r2.act 1 _ _ rfl (.downBegin _ _) (by simp)
  have r4 := r3.act 1 _ _ rfl (.downWait _ _ (by
    intro c hc; simp only [rested, List.mem_cons, List.not_mem_nil, or_false] at hc
    rcases hc with rfl | rfl | rfl <;> exact ⟨by decide, by decide⟩)) (by simp)
  have r5 := r4.act 1 _ _ rfl (.wait _ _ rfl) (by simp)
  have r6 := r5.act 1 _ _ rfl (.cqShutdown _ _) (by simp)
  exact ⟨_, r6, rfl, by simp⟩

/-- Two clients: one counts a text and is answered, then the other one asks, while a third has asked all along and is
answered last. -/
theorem wreach_three {s n : Int} {cs : List Int} {ctx : List Int} {x y : Int} {a b c : Answer A.D} {h1 h2 h3 : Hub A σ}
    (ha : answer env h0 (.updateLMScores s cs n) = .ok (a, h1))
    (hb : answer env h1 (.getLMScores ctx x) = .ok (b, h2)) (hc : answer env h2 (.getNextState ctx y) = .ok (c, h3)) :
    ∃ w : World A σ, WReach env h0 w ∧ w.hub = h3 ∧
      w.log = [.sent 7 (.getNextState ctx y), .sent 0 (.updateLMScores s cs n), .arrived 0 2,
        .handled 0 (.updateLMScores s cs n) a, .got 0 a, .sent 1 (.getLMScores ctx x), .arrived 1 1, .arrived 7 0,
        .handled 1 (.getLMScores ctx x) b, .handled 7 (.getNextState ctx y) c, .got 7 c, .got 1 b] := by
  have r0 := (wreach_serving (env := env) (h0 := h0)).step (.send _ 7 (.getNextState ctx y) (by simp))
  have r1 := r0.step (.send _ 0 (.updateLMScores s cs n) (by simp))
  have r2 := r1.step (.arrive _ 0 (.updateLMScores s cs n) ⟨2, .update, .armed⟩ (by simp) (by simp) rfl (by simp [serving]) rfl rfl)
  have r3 := r2.act 0 _ _ rfl (.driveOk _ _ ⟨2, .update, .readyOk⟩ (by simp [serving, setPhase]) rfl) (by simp)
  have r4 := r3.act 0 _ _ rfl (.incrYes _ _ _ rfl) (by simp)
  have r5 := r4.act 0 _ _ rfl (.arm _ _ _ rfl) (by simp)
  have r6 := r5.step (.handle _ 0 2 _ 0 (.updateLMScores s cs n) a h1 rfl rfl (by simp) (by simp) ha)
  have r7 := r6.step (.get _ 0 (.updateLMScores s cs n) a (by simp) ⟨by simp, by simp⟩)
  have r8 := r7.step (.send _ 1 (.getLMScores ctx x) (by simp))
  have r9 := r8.step (.arrive _ 1 (.getLMScores ctx x) ⟨1, .lmScores, .armed⟩ (by simp) (by simp) rfl (by simp [serving, setPhase]) rfl rfl)
  have r10 := r9.step (.arrive _ 7 (.getNextState ctx y) ⟨0, .nextState, .armed⟩ (by simp) (by simp) rfl (by simp [serving, setPhase]) rfl rfl)
  have r11 := r10.act 0 _ _ rfl (.driveOk _ _ ⟨1, .lmScores, .readyOk⟩ (by simp [serving, setPhase]) rfl) (by simp)
  have r12 := r11.act 0 _ _ rfl (.incrYes _ _ _ rfl) (by simp)
  have r13 := r12.act 0 _ _ rfl (.arm _ _ _ rfl) (by simp)
  have r14 := r13.step (.handle _ 0 1 _ 1 (.getLMScores ctx x) b h2 rfl rfl (by simp) (by simp) hb)
  have r15 := r14.act 0 _ _ rfl (.driveOk _ _ ⟨0, .nextState, .readyOk⟩ (by simp [serving, setPhase]) rfl) (by simp)
  have r16 := r15.act 0 _ _ rfl (.incrYes _ _ _ rfl) (by simp)
  have r17 := r16.act 0 _ _ rfl (.arm _ _ _ rfl) (by simp)
  have r18 := r17.step (.handle _ 0 0 _ 7 (.getNextState ctx y) c h3 rfl rfl (by simp) (by simp) hc)
  have r19 := r18.step (.get _ 7 (.getNextState ctx y) c (by simp) ⟨by simp, by simp⟩)
  have r20 := r19.step (.get _ 1 (.getLMScores ctx x) b (by simp) ⟨by simp, by simp⟩)
  exact ⟨_, r20, rfl, rfl⟩

/-- C85: in the history of the three clients the update comes before the question that was sent after its answer. -/
example {s n : Int} {cs : List Int} {ctx : List Int} {x y : Int} {a b c : Answer A.D} {h1 h2 h3 : Hub A σ}
    (ha : answer env h0 (.updateLMScores s cs n) = .ok (a, h1))
    (hb : answer env h1 (.getLMScores ctx x) = .ok (b, h2)) (hc : answer env h2 (.getNextState ctx y) = .ok (c, h3)) :
    ∃ w order, WReach env h0 w ∧ Explains env h0 order w.log w.hub ∧
      Before order (0, .updateLMScores s cs n, a) (1, .getLMScores ctx x, b) := by
  obtain ⟨w, hw, _, hl⟩ := wreach_three ha hb hc
  obtain ⟨order, ho⟩ := C85_serial w hw
  obtain ⟨r, g1⟩ := ho.got 0 a (by rw [hl]; simp)
  obtain ⟨r', g2⟩ := ho.got 1 b (by rw [hl]; simp)
  have e1 := hw.winv.sentOne _ _ _ (ho.sent _ _ _ g1) (show .sent 0 (.updateLMScores s cs n) ∈ w.log by rw [hl]; simp)
  have e2 := hw.winv.sentOne _ _ _ (ho.sent _ _ _ g2) (show .sent 1 (.getLMScores ctx x) ∈ w.log by rw [hl]; simp)
  subst e1; subst e2
  exact ⟨w, order, hw, ho, ho.realTime _ _ _ _ _ _ g1 g2
    ⟨[.sent 7 (.getNextState ctx y), .sent 0 (.updateLMScores s cs n), .arrived 0 2, .handled 0 (.updateLMScores s cs n) a], [],
      [.arrived 1 1, .arrived 7 0, .handled 1 (.getLMScores ctx x) b, .handled 7 (.getNextState ctx y) c, .got 7 c, .got 1 b], by
        rw [hl]; rfl⟩⟩

end Mozolm.Server

namespace Mozolm.System
open Mozolm.Hub Mozolm.Server PairsDemo

/-- **C86 is false** of failed calls: an error does not mean that the text was not counted.  Here a client counts "aba" five
times, the call fails, and the next client is told of the counts. -/
theorem C86_failed_false : ∃ (m : Bigram.Model) (fuel : Nat) (h0 : Hub Arith.xr (Component Arith.xr))
      (w : World Arith.xr (Component Arith.xr)) (h' : Hub Arith.xr (Component Arith.xr)),
    Bigram.read file .absent = .ok (some m) ∧ tableOf m 97 98 = 1 ∧ tableOf m 98 97 = 1 ∧ tableOf m 98 98 = 1 ∧
    initializeModels (env Arith.xr enc fuel id id) [.bigram m] cfg = .ok (some h0) ∧
    WReach (env Arith.xr enc fuel id id) h0 w ∧
    .failed 0 ∈ w.log ∧ (∀ t r, .sent t r ∈ w.log → t = 0 ∧ r = .updateLMScores 0 [97, 98, 97] 5) ∧
    getLMScores (env Arith.xr enc fuel id id) w.hub [97, 98] 0 =
      .ok (.ok ⟨[[97], [98]], [.fin (6 / 7), .fin (1 / 7)], .fin 7⟩, h') := by
  obtain ⟨m, fuel, h, h', k1, k2, k3, h0, k4, k5⟩ := taught
  obtain ⟨m', j1, j2, j3⟩ := read_file
  have : m' = m := by rw [k1] at j1; cases j1; rfl
  subst this
  have ha : answer (env Arith.xr enc fuel id id) h0 (.updateLMScores 0 [97, 98, 97] 5) =
      .ok (.scores (.ok ⟨[[97], [98]], [.fin (1 / 2), .fin (1 / 2)], .fin 12⟩), h) := by
    simp only [answer, k5, ok_bind]
  refine ⟨m', fuel, h0, _, h', k1, ?_, ?_, ?_, k4, wreach_lost ha, by simp, by simp, k3⟩ <;>
  · simp only [tableOf, j2, j3]; rfl

end Mozolm.System
