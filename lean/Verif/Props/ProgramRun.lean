import Verif.Props.Program
import Verif.Props.Kbest
import Verif.Props.Code

/-! # C106: the client program in front of a server, and how long it waits -/

namespace Mozolm.System
open Mozolm.Hub Mozolm.Server
open Mozolm.Ppm (Memory Learner)
open Client (Library Outside Waits truncate clientMain kbestLine corpusLine deadline)

section
variable {H : Type} {L : Library Arith.xr} {host : Config.Host (Config.ClientConfig H XR)} {f : Config.ClientFlags XR}
  {c : Config.ClientConfig H XR}

theorem truncate_nonneg {x : ℝ} (hx : 0 ≤ x) (ms : Int) : truncate (.fin x) = some ms ↔ (ms : ℝ) ≤ x ∧ x < ms + 1 ∧ ms < 2 ^ 63 := by
  simp only [truncate, if_pos hx]
  have h0 : 0 ≤ ⌊x⌋ := Int.floor_nonneg.2 hx
  constructor
  · intro h
    split at h
    · rename_i hn
      cases h
      exact ⟨Int.floor_le x, Int.lt_floor_add_one x, hn.2⟩
    · cases h
  · rintro ⟨h1, h2, h3⟩
    have e : ⌊x⌋ = ms := Int.floor_eq_iff.2 ⟨h1, h2⟩
    rw [e] at h0 ⊢
    rw [if_pos ⟨by have : (0:Int) ≤ 2 ^ 63 := by norm_num
                   omega, h3⟩]

/-- **C106** Each reply is waited for five seconds if the flag asks for no time or less, and otherwise the time it asks for in
whole milliseconds, rounded down: less than a millisecond is no time at all. Nothing is waited for, and a request is undefined,
for a time that is not a number, is infinite or 2^63 milliseconds or more. What the configuration says does not matter. -/
theorem C106_waits (hL : L.toInt64 = truncate) (he : Config.clientConfigFromFlags Arith.xr host f = some c) :
    (∀ ms, deadline L c.timeout = .ok ms ↔ Waits f.timeout ms) ∧
    ((∀ ms, ¬ Waits f.timeout ms) ↔ L.toInt64 (Arith.xr.dmul (Arith.xr.ofInt 1000) c.timeout) = none) ∧
    ((∀ ms, ¬ Waits f.timeout ms) ↔ f.timeout = .nan ∨ f.timeout = .pinf ∨ ∃ t : ℝ, f.timeout = .fin t ∧ (2 : ℝ) ^ 63 ≤ 1000 * t) := by
  have ht := Config.C48_flag_wins he
  have key : ∀ ms, L.toInt64 (Arith.xr.dmul (Arith.xr.ofInt 1000) c.timeout) = some ms ↔ Waits f.timeout ms := by
    intro ms
    rw [hL, ht]
    by_cases h : XR.le f.timeout (.fin 0)
    · rw [if_pos (by simpa [Arith.xr] using h)]
      have e : Arith.xr.dmul (Arith.xr.ofInt 1000) (Arith.xr.ofInt 5) = .fin 5000 := by
        simp [Arith.xr, XR.mul]; norm_num
      rw [e, truncate_nonneg (by norm_num)]
      constructor
      · rintro ⟨h1, h2, _⟩
        have e1 : ms ≤ 5000 := by exact_mod_cast h1
        have e2 : (5000 : Int) < ms + 1 := by exact_mod_cast h2
        have : ms = 5000 := by omega
        subst this
        exact .byDefault h
      · intro hw
        generalize f.timeout = t at h hw
        cases hw with
        | byDefault => norm_num
        | asked h0 => exact absurd h (by simp only [XR.le]; linarith)
    · rw [if_neg (by simpa [Arith.xr] using h)]
      cases hf : f.timeout with
      | nan =>
        constructor
        · intro hh; simp [XR.mul, truncate] at hh
        · intro hw; cases hw with | byDefault h' => exact absurd h' (by simp [XR.le])
      | pinf =>
        constructor
        · intro hh
          simp [XR.mul, XR.scaleInf, truncate] at hh
        · intro hw; cases hw with | byDefault h' => exact absurd h' (by simp [XR.le])
      | ninf => rw [hf] at h; exact absurd trivial h
      | fin t =>
        rw [hf] at h
        have h0 : 0 < t := by simpa [XR.le] using h
        have e : Arith.xr.dmul (Arith.xr.ofInt 1000) (.fin t) = .fin (1000 * t) := by
          simp [Arith.xr, XR.mul]
        rw [e, truncate_nonneg (by positivity)]
        constructor
        · rintro ⟨h1, h2, h3⟩; exact .asked h0 h1 h2 h3
        · intro hw
          cases hw with
          | byDefault h' => exact absurd h' h
          | asked _ h1 h2 h3 => exact ⟨h1, h2, h3⟩
  refine ⟨fun ms => ?_, ?_, ?_⟩
  · rw [← key ms, deadline]
    cases L.toInt64 (Arith.xr.dmul (Arith.xr.ofInt 1000) c.timeout) <;> simp
  · constructor
    · intro h
      cases hx : L.toInt64 (Arith.xr.dmul (Arith.xr.ofInt 1000) c.timeout) with
      | none => rfl
      | some ms => exact absurd ((key ms).1 hx) (h ms)
    · intro h ms hw
      rw [(key ms).2 hw] at h
      cases h
  · constructor
    · intro h
      cases hf : f.timeout with
      | nan => exact .inl rfl
      | pinf => exact .inr (.inl rfl)
      | ninf => rw [hf] at h; exact absurd (.byDefault trivial) (h 5000)
      | fin t =>
        rw [hf] at h
        refine .inr (.inr ⟨t, rfl, ?_⟩)
        by_contra hlt
        rcases le_or_gt t 0 with h0 | h0
        · exact h 5000 (.byDefault h0)
        · refine h ⌊1000 * t⌋ (.asked h0 (Int.floor_le _) (Int.lt_floor_add_one _) ?_)
          rw [Int.floor_lt]
          push_cast
          linarith
    · rintro (h | h | ⟨t, h, hb⟩) ms hw
      · rw [h] at hw; cases hw with | byDefault h' => exact absurd h' (by simp [XR.le])
      · rw [h] at hw; cases hw with | byDefault h' => exact absurd h' (by simp [XR.le])
      · rw [h] at hw
        cases hw with
        | byDefault h' =>
          have : t ≤ 0 := h'
          have h63 : (0 : ℝ) < 2 ^ 63 := by positivity
          linarith
        | asked _ _ h2 h3 =>
          have h3' : ((ms + 1 : Int) : ℝ) ≤ ((2 ^ 63 : Int) : ℝ) := by exact_mod_cast h3
          push_cast at h3'
          linarith

end

variable {o : Ppm.Options XR} {K : Nat} {M0 : Memory} {m0 : Ppm.Model Arith.xr} {encode : Int → Str} {decode : Str → List Int}
  {sort : List (XR × Str) → List (XR × Str)} {models : List (Component Arith.xr)} {H : Type} {L : Library Arith.xr}

/-- **C106** The program is to print the `k` best continuations of a text, and the server it is told to ask has a PPM model that
learns, after any history of requests with room in the state table: it prints the `k` most likely ones of the memory of the
history and exits with 0, if there are so many. -/
theorem C106_kbest_learner (hl : Learner o K M0 m0) (hms : models.head? = some (.ppm m0)) (hs : ∀ m ∈ models, Served encode m)
    (hsy : ∀ e ∈ m0.symbols, 0 < e.1 → e.2 ≠ []) (hsort : SortsFalling sort) (hL : L.toInt64 = truncate) :
    ∃ bound, ∀ fuel, bound ≤ fuel → ∀ orderN orderV, (env Arith.xr encode fuel orderN orderV).Fair →
      ∀ (cfg : HubConfig XR) reqs h, (cfg.mixture = .interpolation → cfg.weights.length < 2) → cfg.maxStates < 2 ^ 31 →
        Server.Reach (env Arith.xr encode fuel orderN orderV) models cfg reqs h →
        ∃ (h0 : Hub Arith.xr (Component Arith.xr)) (M : Memory),
          initializeModels (env Arith.xr encode fuel orderN orderV) models cfg = .ok (some h0) ∧
          Taught (env Arith.xr encode fuel orderN orderV) K (Ppm.alphabet m0.symbols encode) h0 M0 reqs h M ∧
          ∀ (host : Config.Host (Config.ClientConfig H XR)) (f : Config.ClientFlags XR) (c : Config.ClientConfig H XR) (ms : Int)
            (O : Outside Arith.xr (Hub Arith.xr (Component Arith.xr) × (Nat → XR))) (rounds : Nat),
            Config.clientConfigFromFlags Arith.xr host f = some c → c.job.type = .kBestItems → Waits f.timeout ms → 0 < ms →
            O.connect c.server.address (Config.buildChannelCredentials c) ms = service (env Arith.xr encode fuel orderN orderV) decode →
            (∀ x ∈ decode c.job.context, 0 ≤ x) →
            1 + (reqs.map Request.symbols).sum + (decode c.job.context).length ≤ cfgMax (A := Arith.xr) cfg →
            ∀ (random : Nat → XR) (sent : List (Client.Rpc XR)),
            ∃ (past : List Int) (w' : Client.World XR (Hub Arith.xr (Component Arith.xr) × (Nat → XR))),
              M.known past ∧ past <+: (Ppm.alphabet m0.symbols encode).past (decode c.job.context) ∧
              (decode c.job.context = [] → past = [0]) ∧
              (c.job.kBest ≤ m0.chars + 1 → ∃ l : List (ℝ × Str), Likeliest o m0.symbols m0.chars M past c.job.kBest.toNat l ∧
                clientMain (A := Arith.xr) L (Client.Env.xr sort decode) O host rounds ⟨(h, random), sent⟩ f =
                  .ok ⟨0, kbestLine L.fixed3 c.job.kBest (l.map fun x => (.fin x.1, x.2)), w'⟩) ∧
              ((m0.chars : Int) + 1 < c.job.kBest →
                clientMain (A := Arith.xr) L (Client.Env.xr sort decode) O host rounds ⟨(h, random), sent⟩ f = .error .ub) := by
  obtain ⟨bound, hb⟩ := C83_kbest (decode := decode) hl hms hs hsy hsort
  refine ⟨bound, fun fuel hfu orderN orderV hf cfg reqs h hcfg hmx hr => ?_⟩
  obtain ⟨h0, M, i1, i2, hk⟩ := hb fuel hfu orderN orderV hf cfg reqs h hcfg hmx hr
  refine ⟨h0, M, i1, i2, fun host f c ms O rounds he hj hw _ ho hpos hroom random sent => ?_⟩
  obtain ⟨past, w', p1, p2, p3, _, p4, p5⟩ := hk c.job.context hpos hroom random sent
  have hd := ((C106_waits hL he).1 ms).2 hw
  obtain ⟨k1, _, k3⟩ := Client.C106_kbest (L := L) (E := Client.Env.xr sort decode) (O := O) (fuel := rounds)
    (w := ⟨(h, random), sent⟩) he hj hd
  rw [ho] at k1 k3
  refine ⟨past, w', p1, p2, p3, fun hle => ?_, fun hlt => k3 _ (p5 _ hlt)⟩
  obtain ⟨l, l1, l2⟩ := p4 _ hle
  exact ⟨l, l1, k1 _ _ l2⟩

/-- **C106** The program is to measure a corpus with such a server: it prints the number of characters, how many of them are not
known, and what coding the corpus with the memory of the history costs per character, and exits with 0. -/
theorem C106_bits_learner (hl : Learner o K M0 m0) (hms : models.head? = some (.ppm m0)) (hs : ∀ m ∈ models, Served encode m)
    (hsy : ∀ e ∈ m0.symbols, 0 < e.1 → e.2 ≠ []) (hsort : ∀ l, (sort l).Perm l) (hdec : decode [] = []) (hL : L.toInt64 = truncate) :
    ∃ bound, ∀ fuel, bound ≤ fuel → ∀ orderN orderV, (env Arith.xr encode fuel orderN orderV).Fair →
      ∀ (cfg : HubConfig XR) reqs h, (cfg.mixture = .interpolation → cfg.weights.length < 2) → cfg.maxStates < 2 ^ 31 →
        Server.Reach (env Arith.xr encode fuel orderN orderV) models cfg reqs h →
        ∃ (h0 : Hub Arith.xr (Component Arith.xr)) (M : Memory),
          initializeModels (env Arith.xr encode fuel orderN orderV) models cfg = .ok (some h0) ∧
          Taught (env Arith.xr encode fuel orderN orderV) K (Ppm.alphabet m0.symbols encode) h0 M0 reqs h M ∧
          ∀ (host : Config.Host (Config.ClientConfig H XR)) (f : Config.ClientFlags XR) (c : Config.ClientConfig H XR) (ms : Int)
            (O : Outside Arith.xr (Hub Arith.xr (Component Arith.xr) × (Nat → XR))) (rounds : Nat) (file : List (List Int)),
            Config.clientConfigFromFlags Arith.xr host f = some c → c.job.type = .bitsPerChar → Waits f.timeout ms → 0 < ms →
            O.connect c.server.address (Config.buildChannelCredentials c) ms = service (env Arith.xr encode fuel orderN orderV) decode →
            O.corpus c.job.corpus = some (file.map fun line => line.map encode) → file ≠ [] →
            (∀ line ∈ file, ∀ x ∈ line, 0 ≤ x ∧ encode x ≠ [] ∧ decode (encode x) = [x]) →
            1 + (reqs.map Request.symbols).sum + 4 * (file.map List.length).sum ≤ cfgMax (A := Arith.xr) cfg →
            ∀ (random : Nat → XR) (sent : List (Client.Rpc XR)),
            ∃ (w' : Client.World XR (Hub Arith.xr (Component Arith.xr) × (Nat → XR))) (k : Nat) (b : ℝ) (M' : Memory),
              CodedFile o K m0.chars (Ppm.alphabet m0.symbols encode) M file k b M' ∧
              clientMain (A := Arith.xr) L (Client.Env.xr sort decode) O host rounds ⟨(h, random), sent⟩ f =
                .ok ⟨0, corpusLine L.double (file.map fun line => line.length + 1).sum k
                  (.fin (b / ((file.map fun line => line.length + 1).sum : ℕ))), w'⟩ ∧
              AsksWell (env Arith.xr encode fuel orderN orderV) o (Ppm.alphabet m0.symbols encode) m0.symbols m0.chars M' w'.srv.1 := by
  obtain ⟨bound, hb⟩ := C81_bits (decode := decode) hl hms hs hsy hsort hdec
  refine ⟨bound, fun fuel hfu orderN orderV hf cfg reqs h hcfg hmx hr => ?_⟩
  obtain ⟨h0, M, i1, i2, hk⟩ := hb fuel hfu orderN orderV hf cfg reqs h hcfg hmx hr
  refine ⟨h0, M, i1, i2, fun host f c ms O rounds file he hj hw _ ho hfile hne hch hroom random sent => ?_⟩
  obtain ⟨res, w', e1, e2, e3⟩ := hk file hne hch random sent
  obtain ⟨k, b, M', c1, c2, c3, _⟩ := e3 (e2 hroom)
  subst c2
  have hd := ((C106_waits hL he).1 ms).2 hw
  obtain ⟨k1, _⟩ := Client.C106_bits (L := L) (E := Client.Env.xr sort decode) (O := O) (fuel := rounds)
    (w := ⟨(h, random), sent⟩) he hj hfile (by simpa using hne) hd
  rw [ho] at k1
  have hrun := k1 _ w' e1
  simp only at hrun
  exact ⟨w', k, b, M', c1, hrun, c3⟩

end Mozolm.System
