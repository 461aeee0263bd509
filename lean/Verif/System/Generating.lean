import Verif.System.Drawing
import Verif.System.Sitting

/-!
# The client's generation loop in front of a server with a PPM component that learns
-/

namespace Mozolm.System
open Mozolm.Hub Mozolm.Server
open Mozolm.Ppm (Memory Learner)

section
variable {A : Arith} {σ : Type} {env : Env A σ} {decode : Str → List Int} {E : Client.Env A} {h : Hub A σ} {sent : List (Client.Rpc A.D)}

/-- The random numbers after the first. -/
def later {D : Type} (u : Nat → D) : Nat → D := fun n => u (n + 1)

/-- Requests do not draw random numbers. -/
theorem dest_random (u u' : Nat → A.D) (sym : Str) (s n : Int) :
    Client.updateCountGetDestStateScore E (service env decode) ⟨(h, u'), sent⟩ sym s n =
      ((Client.updateCountGetDestStateScore E (service env decode) ⟨(h, u), sent⟩ sym s n).1,
        ⟨((Client.updateCountGetDestStateScore E (service env decode) ⟨(h, u), sent⟩ sym s n).2.srv.1, u'),
          (Client.updateCountGetDestStateScore E (service env decode) ⟨(h, u), sent⟩ sym s n).2.sent⟩) := by
  simp only [Client.updateCountGetDestStateScore, Client.rpcUpdate, Client.rpcNextState, service]
  generalize replied h (Server.updateLMScores env h (toInt32 s) (E.decode sym) n) = x
  obtain ⟨x, h1⟩ := x
  cases x with
  | none => rfl
  | some r =>
    simp only
    cases Scores.getTopHypotheses E.sort r (-1) with
    | ok hy =>
      simp only
      generalize replied h1 (Server.getNextState env h1 (decode sym) (toInt32 s)) = y
      obtain ⟨y, h2⟩ := y
      cases y <;> rfl
    | _ => rfl

theorem scores_random (u u' : Nat → A.D) (ctx : Str) (s : Int) :
    Client.getLMScores E (service env decode) ⟨(h, u'), sent⟩ ctx s =
      ((Client.getLMScores E (service env decode) ⟨(h, u), sent⟩ ctx s).1,
        ⟨((Client.getLMScores E (service env decode) ⟨(h, u), sent⟩ ctx s).2.srv.1, u'),
          (Client.getLMScores E (service env decode) ⟨(h, u), sent⟩ ctx s).2.sent⟩) := by
  simp only [Client.getLMScores, Client.getLMScore, service]
  generalize replied h (Server.getLMScores env h (decode ctx) (toInt32 s)) = x
  obtain ⟨x, h1⟩ := x
  cases x with
  | none => rfl
  | some r =>
    simp only
    cases Scores.getTopHypotheses E.sort r (-1) with
    | ok hy => simp only; split <;> rfl
    | _ => rfl

end

section
variable {σ : Type} {env : Env Arith.xr σ} {decode : Str → List Int} {E : Client.Env Arith.xr} {h : Hub Arith.xr σ} {sent : List (Client.Rpc XR)}
  {maxLen : Nat}

theorem randLoop_step (fuel : Nat) (u : Nat → XR) (s : Int) (scores : List (XR × Str)) (text : Str) :
    Client.randLoop (A := Arith.xr) E (service env decode) maxLen (fuel + 1) ⟨(h, u), sent⟩ s scores text =
      match picked scores (u 0) with
      | none => .ok (⟨false, text⟩, ⟨(h, later u), sent⟩)
      | some chosen =>
        if chosen = [] then .ok (Client.randFinish text maxLen, ⟨(h, later u), sent⟩)
        else
          match Client.updateCountGetDestStateScore (A := Arith.xr) E (service env decode) ⟨(h, later u), sent⟩ chosen s 1 with
          | (none, w) => .ok (⟨false, text ++ chosen⟩, w)
          | (some x, w) =>
            if (text ++ chosen).length < maxLen then Client.randLoop (A := Arith.xr) E (service env decode) maxLen fuel w x.1 x.2 (text ++ chosen)
            else .ok (Client.randFinish (text ++ chosen) maxLen, w) := by
  rw [Client.randLoop]
  have hun : (service env decode).uniform (h, u) = (u 0, (h, later u)) := rfl
  simp only [picked, hun]
  cases scores[Client.randomPosition Arith.xr (scores.map Prod.fst) (u 0)]? with
  | none => rfl
  | some x =>
    obtain ⟨p, chosen⟩ := x
    simp only [Option.map_some]
    split
    · rfl
    · cases hr : Client.updateCountGetDestStateScore (A := Arith.xr) E (service env decode) ⟨(h, later u), sent⟩ chosen s 1 with
      | mk a w =>
        cases a with
        | none => rfl
        | some x => rfl

/-- What is generated begins with what was there. -/
theorem randLoop_prefix : ∀ (fuel : Nat) {w w' : Client.World XR (Hub Arith.xr σ × (Nat → XR))} {s : Int} {scores : List (XR × Str)} {text : Str} {g : Client.Gen},
    Client.randLoop (A := Arith.xr) E (service env decode) maxLen fuel w s scores text = .ok (g, w') → text <+: g.text
  | 0, _, _, _, _, _, _, he => by cases he
  | fuel + 1, ⟨(h, u), sent⟩, w', s, scores, text, g, he => by
    have hfin : ∀ t, t <+: (Client.randFinish t maxLen).text := by
      intro t
      unfold Client.randFinish
      split <;> simp
    rw [randLoop_step] at he
    cases hp : picked scores (u 0) with
    | none => rw [hp] at he; cases he; exact List.prefix_refl _
    | some chosen =>
      rw [hp] at he
      simp only at he
      split at he
      · cases he; exact hfin _
      · refine (List.prefix_append text chosen).trans ?_
        cases hr : Client.updateCountGetDestStateScore (A := Arith.xr) E (service env decode) ⟨(h, later u), sent⟩ chosen s 1 with
        | mk a w =>
          rw [hr] at he
          cases a with
          | none => cases he; exact List.prefix_refl _
          | some x =>
            simp only at he
            split at he
            · exact randLoop_prefix fuel he
            · cases he; exact hfin _

end

variable {encode : Int → Str} {fuel : Nat} {o : Ppm.Options XR} {K : Nat} {M M0 : Memory} {m0 : Ppm.Model Arith.xr}
  {orderN : List (Int × Nat) → List (Int × Nat)} {orderV : List (Str × XR) → List (Str × XR)}
  {models : List (Component Arith.xr)} {cfg : HubConfig XR} {h : Hub Arith.xr (Component Arith.xr)}
  {sort : List (XR × Str) → List (XR × Str)} {decode : Str → List Int}

/-- The client at a state of the server: the scores it has are those of context `c`, and there is room for `n` steps. -/
structure Stage (encode : Int → Str) (fuel : Nat) (orderN : List (Int × Nat) → List (Int × Nat)) (orderV : List (Str × XR) → List (Str × XR))
    (o : Ppm.Options XR) (K : Nat) (m0 : Ppm.Model Arith.xr) (models : List (Component Arith.xr)) (cfg : HubConfig XR)
    (sort : List (XR × Str) → List (XR × Str)) (M : Memory) (c : List Int)
    (h : Hub Arith.xr (Component Arith.xr)) (s : Nat) (scores : List (XR × Str)) (n : Nat) : Prop where
  sits : ∃ (ctxs : List (List Int)) (r : LMScores XR), Sitting encode fuel orderN orderV K m0 models cfg M ctxs h ∧ NameAt 0 ctxs c h s ∧
    Tells o m0.symbols m0.chars M c r ∧ scores = sort (r.probs.zip r.symbols)
  room : ∀ h', Further (env Arith.xr encode fuel orderN orderV) (4 * n) h h' → h'.selfRecycled = false

/-- One character generated. -/
theorem Stage.step (hf : (env Arith.xr encode fuel orderN orderV).Fair) (hl : Learner o K M0 m0) (hd : Ppm.Dense m0.symbols m0.chars)
    (hv : Serving encode fuel orderN orderV models cfg) {c : List Int} {s n : Nat} {scores : List (XR × Str)}
    (hs : Stage encode fuel orderN orderV o K m0 models cfg sort M c h s scores (n + 1)) (sent : List (Client.Rpc XR)) {x : Int}
    (hx0 : 0 ≤ x) (hx : decode (encode x) = [x]) :
    ∃ (h' : Hub Arith.xr (Component Arith.xr)) (sent' : List (Client.Rpc XR)) (s' : Nat) (scores' : List (XR × Str)),
      (∀ u, Client.updateCountGetDestStateScore (Client.Env.xr sort decode) (service (env Arith.xr encode fuel orderN orderV) decode)
        ⟨(h, u), sent⟩ (encode x) s 1 = (some ((s' : Int), scores'), ⟨(h', u), sent'⟩)) ∧
      Stage encode fuel orderN orderV o K m0 models cfg sort (M.learn K (Ppm.alphabet m0.symbols encode) 1 c [x])
        ((M.learn K (Ppm.alphabet m0.symbols encode) 1 c [x]).longest ((Ppm.alphabet m0.symbols encode).typed x :: c)) h' s' scores' n := by
  obtain ⟨ctxs, r, h1, h2, h3, h4⟩ := hs.sits
  generalize hu : Client.updateCountGetDestStateScore (A := Arith.xr) (Client.Env.xr sort decode)
    (service (env Arith.xr encode fuel orderN orderV) decode) ⟨(h, fun _ => .fin 0), sent⟩ (encode x) s 1 = a
  obtain ⟨a, w⟩ := a
  have hfu := further_dest (A := Arith.xr) (E := Client.Env.xr sort decode) (w := ⟨(h, fun _ => .fin 0), sent⟩) (env := env Arith.xr encode fuel orderN orderV)
    (decode := decode) rfl (encode x) s 1
  rw [hu, hx] at hfu
  have hg : w.srv.1.selfRecycled = false := hs.room _ (hfu.mono (by simp))
  obtain ⟨ctxs', r', k, rfl, k1, k2, k3, _⟩ := Sitting.dest (w := ⟨(h, fun _ => .fin 0), sent⟩) hf hl hd hv h1 h2 hx (by simpa using hx0) (by simp) hu hg
  refine ⟨w.srv.1, w.sent, k, sort (r'.probs.zip r'.symbols), fun u => ?_, ⟨ctxs', r', k1, k2, k3, rfl⟩, fun h' hh => ?_⟩
  · rw [dest_random (A := Arith.xr) (fun _ => XR.fin 0) u, hu]
  · exact hs.room _ ((hfu.trans hh).mono (by simp; omega))

end Mozolm.System
