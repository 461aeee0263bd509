import Verif.System.Client
import Verif.System.Listing
import Verif.Props.Session

/-!
# A client sitting with a server with a PPM component that learns
-/

namespace Mozolm.System
open Mozolm.Hub Mozolm.Server

/-! ## What the client does is a history of requests -/

section
variable {A : Arith} {σ : Type} {env : Env A σ} {h h' h'' : Hub A σ} {m n : Nat} {decode : Str → List Int} {E : Client.Env A}
  {w : Client.World A.D (Hub A σ × (Nat → A.D))}

/-- The server gets from `h` to `h'` by requests that carry at most `n` symbols. -/
def Further (env : Env A σ) (n : Nat) (h h' : Hub A σ) : Prop :=
  ∃ more, Server.serveAll env h more = .ok h' ∧ (more.map Request.symbols).sum ≤ n

theorem Further.refl (h : Hub A σ) : Further env n h h := ⟨[], rfl, by simp⟩

theorem Further.trans (a : Further env m h h') (b : Further env n h' h'') : Further env (m + n) h h'' := by
  obtain ⟨x, x1, x2⟩ := a
  obtain ⟨y, y1, y2⟩ := b
  refine ⟨x ++ y, by rw [serveAll_append, x1]; exact y1, ?_⟩
  rw [List.map_append, List.sum_append]; omega

theorem Further.mono (a : Further env m h h') (hm : m ≤ n) : Further env n h h' := by
  obtain ⟨x, x1, x2⟩ := a
  exact ⟨x, x1, by omega⟩

theorem Further.good (hf : env.Fair) (hi : Inv h) (a : Further env n h h') : Good env h h' := by
  obtain ⟨x, x1, x2⟩ := a
  exact serveAll_good hf hi x1

theorem further_ask (ctx : List Int) (s : Int) : Further env ctx.length h (replied h (Server.getLMScores env h ctx s)).2 := by
  cases e : Server.getLMScores env h ctx s with
  | error f => exact .refl h
  | ok x =>
    obtain ⟨r, h1⟩ := x
    have : Server.serveAll env h [.getLMScores ctx s] = .ok h1 := by simp only [Server.serveAll, Server.serve, e, ok_bind]
    cases r <;> exact ⟨_, this, by simp [Request.symbols]⟩

theorem further_next (ctx : List Int) (s : Int) : Further env ctx.length h (replied h (Server.getNextState env h ctx s)).2 := by
  cases e : Server.getNextState env h ctx s with
  | error f => exact .refl h
  | ok x =>
    obtain ⟨r, h1⟩ := x
    have : Server.serveAll env h [.getNextState ctx s] = .ok h1 := by simp only [Server.serveAll, Server.serve, e, ok_bind]
    cases r <;> exact ⟨_, this, by simp [Request.symbols]⟩

theorem further_update (s : Int) (cs : List Int) (n : Int) : Further env (3 * cs.length) h (replied h (Server.updateLMScores env h s cs n)).2 := by
  cases e : Server.updateLMScores env h s cs n with
  | error f => exact .refl h
  | ok x =>
    obtain ⟨r, h1⟩ := x
    have : Server.serveAll env h [.updateLMScores s cs n] = .ok h1 := by simp only [Server.serveAll, Server.serve, e, ok_bind]
    cases r <;> exact ⟨_, this, by simp [Request.symbols]⟩

theorem further_rpcNext (ctx : Str) (s : Int) : Further env (decode ctx).length w.srv.1 (Client.rpcNextState (service env decode) w ctx s).2.srv.1 :=
  further_next _ _

theorem further_scores (ctx : Str) (s : Int) : Further env (decode ctx).length w.srv.1 (Client.getLMScores E (service env decode) w ctx s).2.srv.1 := by
  have key := further_ask (env := env) (h := w.srv.1) (decode ctx) (toInt32 s)
  simp only [Client.getLMScores, Client.getLMScore, service]
  cases (replied w.srv.1 (Server.getLMScores env w.srv.1 (decode ctx) (toInt32 s))).1 with
  | none => exact key
  | some r =>
    simp only
    cases Scores.getTopHypotheses E.sort r (-1) with
    | ok hy => simp only; split <;> exact key
    | _ => exact key

theorem further_dest (hE : E.decode = decode) (ctx : Str) (s n : Int) :
    Further env (4 * (decode ctx).length) w.srv.1 (Client.updateCountGetDestStateScore E (service env decode) w ctx s n).2.srv.1 := by
  have key := further_update (env := env) (h := w.srv.1) (toInt32 s) (decode ctx) n
  simp only [Client.updateCountGetDestStateScore, Client.rpcUpdate, hE]
  simp only [service]
  cases (replied w.srv.1 (Server.updateLMScores env w.srv.1 (toInt32 s) (decode ctx) n)).1 with
  | none => exact key.mono (by omega)
  | some r =>
    simp only
    cases Scores.getTopHypotheses E.sort r (-1) with
    | ok hy =>
      simp only [Client.rpcNextState]
      have k2 := key.trans (further_next (decode ctx) (toInt32 s))
      cases (replied (replied w.srv.1 (Server.updateLMScores env w.srv.1 (toInt32 s) (decode ctx) n)).2
        (Server.getNextState env (replied w.srv.1 (Server.updateLMScores env w.srv.1 (toInt32 s) (decode ctx) n)).2 (decode ctx) (toInt32 s))).1 <;>
        exact k2.mono (by omega)
    | _ => exact key.mono (by omega)

theorem further_line (hE : E.decode = decode) : ∀ (syms : List Str) {w w' : Client.World A.D (Hub A σ × (Nat → A.D))} {t : Client.Totals A.D}
    {s : Int} {scores : List (A.D × Str)} {out : Option (Client.Totals A.D)},
    Client.bitsLine E (service env decode) w t s scores syms = .ok (out, w') →
    Further env (4 * (syms.map fun x => (decode x).length).sum) w.srv.1 w'.srv.1
  | [], w, w', t, s, scores, out, he => by cases he; exact .refl _
  | sym :: syms, w, w', t, s, scores, out, he => by
    rw [Client.bitsLine] at he
    obtain ⟨b, _, he⟩ := bind_ok.1 he
    have k1 := further_dest (w := w) (env := env) hE sym s 1
    simp only at he
    rw [List.map_cons, List.sum_cons]
    cases hr : (Client.updateCountGetDestStateScore E (service env decode) w sym s 1).1 with
    | none =>
      rw [hr] at he
      cases he
      exact k1.mono (by omega)
    | some x =>
      rw [hr] at he
      exact (k1.trans (further_line hE syms he)).mono (by omega)

theorem further_lines (hE : E.decode = decode) (h0 : decode [] = []) : ∀ (lines : List (List Str)) {w w' : Client.World A.D (Hub A σ × (Nat → A.D))}
    {t : Client.Totals A.D} {out : Option (Client.Totals A.D)},
    Client.bitsLines E (service env decode) w t lines = .ok (out, w') →
    Further env (4 * (lines.map fun l => (l.map fun x => (decode x).length).sum).sum) w.srv.1 w'.srv.1
  | [], w, w', t, out, he => by cases he; exact .refl _
  | line :: lines, w, w', t, out, he => by
    rw [Client.bitsLines] at he
    have k1 := further_scores (w := w) (env := env) (decode := decode) (E := E) [] 0
    rw [h0] at k1
    rw [List.map_cons, List.sum_cons]
    cases hr : (Client.getLMScores E (service env decode) w [] 0).1 with
    | none =>
      rw [hr] at he
      cases he
      exact k1.mono (by simp)
    | some x =>
      rw [hr] at he
      simp only at he
      obtain ⟨⟨l, w1⟩, e1, he⟩ := bind_ok.1 he
      have k2 := k1.trans (further_line hE _ e1)
      rw [List.map_append, List.sum_append, List.map_singleton, h0] at k2
      simp only [List.length_nil, List.sum_cons, List.sum_nil] at k2
      cases l with
      | none => cases he; exact k2.mono (by omega)
      | some t' => exact (k2.trans (further_lines hE h0 lines he)).mono (by omega)

end

/-! ## One step of the client -/

open Mozolm.Ppm (Memory Learner)
variable {encode : Int → Str} {fuel : Nat} {o : Ppm.Options XR} {K : Nat} {M M0 : Memory} {ctxs : List (List Int)} {m0 : Ppm.Model Arith.xr}
  {orderN : List (Int × Nat) → List (Int × Nat)} {orderV : List (Str × XR) → List (Str × XR)}
  {models : List (Component Arith.xr)} {cfg : HubConfig XR} {h : Hub Arith.xr (Component Arith.xr)}
  {sort : List (XR × Str) → List (XR × Str)} {decode : Str → List Int}

/-- Requests are served to the end. -/
structure Serving (encode : Int → Str) (fuel : Nat) (orderN : List (Int × Nat) → List (Int × Nat)) (orderV : List (Str × XR) → List (Str × XR))
    (models : List (Component Arith.xr)) (cfg : HubConfig XR) : Prop where
  ask : ∀ reqs h, Server.Reach (env Arith.xr encode fuel orderN orderV) models cfg reqs h → ∀ ctx x,
    ∃ rep h', Server.getLMScores (env Arith.xr encode fuel orderN orderV) h ctx x = .ok (rep, h')
  update : ∀ reqs h, Server.Reach (env Arith.xr encode fuel orderN orderV) models cfg reqs h →
    ∀ x : Int, 0 ≤ x → x < 2 ^ 31 → x < h.states.length → ∀ cs : List Int, (∀ c ∈ cs, 0 ≤ c) → ∀ n,
      ∃ rep h', Server.updateLMScores (env Arith.xr encode fuel orderN orderV) h x cs n = .ok (rep, h')

/-- The server the client talks to. -/
structure Sitting (encode : Int → Str) (fuel : Nat) (orderN : List (Int × Nat) → List (Int × Nat)) (orderV : List (Str × XR) → List (Str × XR))
    (K : Nat) (m0 : Ppm.Model Arith.xr) (models : List (Component Arith.xr)) (cfg : HubConfig XR) (M : Memory) (ctxs : List (List Int))
    (h : Hub Arith.xr (Component Arith.xr)) : Prop where
  reach : ∃ reqs, Server.Reach (env Arith.xr encode fuel orderN orderV) models cfg reqs h
  ready : Ready encode fuel orderN orderV K m0 0 M ctxs h
  weights : h.weights.length < 2
  max : h.max < 2 ^ 31

theorem Sitting.id32 (hs : Sitting encode fuel orderN orderV K m0 models cfg M ctxs h) {c : List Int} {s : Nat} (hn : NameAt 0 ctxs c h s) :
    toInt32 (s : Int) = s ∧ (s : Int) < 2 ^ 31 ∧ (s : Int) < h.states.length := by
  have hlt : s < h.states.length := by
    obtain ⟨st, q, a1, _⟩ := hn
    exact lt_of_getElem?_eq_some a1
  have hle := hs.ready.own.inv.le
  have := hs.max
  exact ⟨toInt32_of_range (by omega) (by omega), by omega, by omega⟩

theorem Sitting.further {n : Nat} {h' : Hub Arith.xr (Component Arith.xr)} {M' : Memory} {ctxs' : List (List Int)} (hf : (env Arith.xr encode fuel orderN orderV).Fair)
    (hs : Sitting encode fuel orderN orderV K m0 models cfg M ctxs h)
    (hr : Ready encode fuel orderN orderV K m0 0 M' ctxs' h') (hfu : Further (env Arith.xr encode fuel orderN orderV) n h h') :
    Sitting encode fuel orderN orderV K m0 models cfg M' ctxs' h' := by
  have g := hfu.good hf hs.ready.own.inv
  obtain ⟨more, e, _⟩ := hfu
  obtain ⟨reqs, r⟩ := hs.reach
  exact ⟨⟨_, reach_append r e⟩, hr, by rw [g.const.weights]; exact hs.weights, by rw [g.const.max]; exact hs.max⟩

/-- `UpdateCountGetDestStateScore` for at most one symbol. -/
theorem Sitting.dest (hf : (env Arith.xr encode fuel orderN orderV).Fair) (hl : Learner o K M0 m0) (hd : Ppm.Dense m0.symbols m0.chars)
    (hv : Serving encode fuel orderN orderV models cfg) {w : Client.World XR (Hub Arith.xr (Component Arith.xr) × (Nat → XR))}
    (hs : Sitting encode fuel orderN orderV K m0 models cfg M ctxs w.srv.1) {c : List Int} {s : Nat} (hn : NameAt 0 ctxs c w.srv.1 s)
    {sym : Str} {cs : List Int} (hcs : decode sym = cs) (hpos : ∀ x ∈ cs, 0 ≤ x) (hone : cs.length ≤ 1) {n : Int}
    {u : Option (Int × List (XR × Str))} {w' : Client.World XR (Hub Arith.xr (Component Arith.xr) × (Nat → XR))}
    (he : Client.updateCountGetDestStateScore (Client.Env.xr sort decode) (service (env Arith.xr encode fuel orderN orderV) decode) w sym s n = (u, w'))
    (hg : w'.srv.1.selfRecycled = false) :
    ∃ (ctxs' : List (List Int)) (r : LMScores XR) (k : Nat), u = some ((k : Int), sort (r.probs.zip r.symbols)) ∧
      Sitting encode fuel orderN orderV K m0 models cfg (counted K (Ppm.alphabet m0.symbols encode) M c cs n) ctxs' w'.srv.1 ∧
      NameAt 0 ctxs' ((counted K (Ppm.alphabet m0.symbols encode) M c cs n).longest (onto (Ppm.alphabet m0.symbols encode) cs c)) w'.srv.1 k ∧
      Tells o m0.symbols m0.chars (counted K (Ppm.alphabet m0.symbols encode) M c cs n)
        ((counted K (Ppm.alphabet m0.symbols encode) M c cs n).longest (onto (Ppm.alphabet m0.symbols encode) cs c)) r ∧
      w'.srv.2 = w.srv.2 := by
  obtain ⟨i1, i2, i3⟩ := hs.id32 hn
  obtain ⟨reqs, hreach⟩ := hs.reach
  have hfu := further_dest (env := env Arith.xr encode fuel orderN orderV) (w := w) (decode := decode) (E := Client.Env.xr sort decode) rfl sym s n
  rw [he] at hfu
  obtain ⟨rep, h1, e1⟩ := hv.update reqs _ hreach s (by omega) i2 i3 cs hpos n
  simp only [Client.updateCountGetDestStateScore, Client.rpcUpdate, Client.rpcNextState, service, i1] at he
  rw [show (Client.Env.xr sort decode).decode = decode from rfl, hcs, e1] at he
  have hf1 : Further (env Arith.xr encode fuel orderN orderV) (3 * cs.length) w.srv.1 h1 := by
    have := further_update (env := env Arith.xr encode fuel orderN orderV) (h := w.srv.1) s cs n
    rw [e1] at this
    cases rep <;> exact this
  have g1 := hf1.good hf hs.ready.own.inv
  have hg1 : h1.selfRecycled = false := by
    cases rep with
    | invalidArgument => simp only [replied] at he; cases he; exact hg
    | ok r =>
      simp only [replied] at he
      have hnx := (further_next (env := env Arith.xr encode fuel orderN orderV) (h := h1) cs s).good hf g1.inv
      cases ht : Scores.getTopHypotheses (Client.Env.xr sort decode).sort r (-1) with
      | ok hy =>
        rw [ht] at he
        simp only at he
        refine ghost_false hnx ?_
        change _ = (u, w') at he
        cases hr : (replied h1 (Server.getNextState (env Arith.xr encode fuel orderN orderV) h1 cs s)).1 <;>
          (simp only [replied] at hr; rw [hr] at he; cases he; exact hg)
      | _ => rw [ht] at he; cases he; exact hg
  obtain ⟨M', new, hM, hr', hw', hall, hrep⟩ := hs.ready.update hf hl.alpha hl.beta hl.initial hl.adaptive i1 hpos (.inl hone) hn e1 hg1
  obtain ⟨r, rfl, htell⟩ := hrep rfl hs.weights hl.totals
  obtain ⟨k, hp, hk⟩ := hall cs [] (by simp)
  have hM' : M' = counted K (Ppm.alphabet m0.symbols encode) M c cs n := hM
  subst hM'
  have hnext : Server.getNextState (env Arith.xr encode fuel orderN orderV) h1 cs s = .ok (.ok (k : Int), h1) := by
    simp only [Server.getNextState, contextState, i1, if_neg (show ¬ ((s : Int) < 0) by omega), contextLoop_path hp, ok_bind]
  simp only [replied, hnext, htell.top hd] at he
  cases he
  exact ⟨_, r, k, rfl, hs.further hf hr' hf1, hk, htell, rfl⟩

/-- The scores at a state. -/
theorem Sitting.scores (hf : (env Arith.xr encode fuel orderN orderV).Fair) (hl : Learner o K M0 m0) (hd : Ppm.Dense m0.symbols m0.chars)
    (h0 : decode [] = []) {w : Client.World XR (Hub Arith.xr (Component Arith.xr) × (Nat → XR))}
    (hs : Sitting encode fuel orderN orderV K m0 models cfg M ctxs w.srv.1) {c : List Int} {s : Nat} (hn : NameAt 0 ctxs c w.srv.1 s)
    {u : Option (List (XR × Str))} {w' : Client.World XR (Hub Arith.xr (Component Arith.xr) × (Nat → XR))}
    (he : Client.getLMScores (Client.Env.xr sort decode) (service (env Arith.xr encode fuel orderN orderV) decode) w [] s = (u, w')) :
    ∃ r : LMScores XR, u = some (sort (r.probs.zip r.symbols)) ∧
      Sitting encode fuel orderN orderV K m0 models cfg M ctxs w'.srv.1 ∧ NameAt 0 ctxs c w'.srv.1 s ∧
      Tells o m0.symbols m0.chars M c r ∧ w'.srv.2 = w.srv.2 ∧ (w'.srv.1.selfRecycled = false ↔ w.srv.1.selfRecycled = false) := by
  obtain ⟨i1, i2, i3⟩ := hs.id32 hn
  obtain ⟨r, h', e1, ht⟩ := hs.ready.tells hl.alpha hl.beta hl.initial hl.totals hs.weights hn
  have hfu := further_scores (env := env Arith.xr encode fuel orderN orderV) (w := w) (decode := decode) (E := Client.Env.xr sort decode) [] s
  rw [he] at hfu
  have e2 : Server.getLMScores (env Arith.xr encode fuel orderN orderV) w.srv.1 [] s = .ok (.ok r, h') := by
    rw [getLMScores_guard hf (closedOn Arith.xr encode fuel) hs.ready.own]
    change Server.getLMScores (genv encode fuel orderN orderV) w.srv.1 [] s = _
    simp only [Server.getLMScores, contextState, i1, if_neg (show ¬ ((s : Int) < 0) by omega), contextLoop, ok_bind, e1]
  have hr' := hs.ready.touches hf hl.alpha hl.beta hl.initial hl.adaptive (extract_good hs.ready.own.inv e1) (extract_touches' e1)
  obtain ⟨ms, _, hms⟩ := extract_states e1
  have htell := ht
  obtain ⟨p, _, _, _, _, N, q1, q2, _⟩ := ht
  simp only [Client.getLMScores, Client.getLMScore, service, i1, h0, e2, replied, htell.top hd, q1] at he
  rw [if_neg (by simp [XR.le, q2])] at he
  cases he
  refine ⟨r, rfl, hs.further hf hr' hfu, ?_, htell, rfl, ?_⟩
  · obtain ⟨st, q, a1, a2, a3⟩ := hn
    exact ⟨st, q, by rw [hms]; exact a1, a2, a3⟩
  · rw [hms]

end Mozolm.System
