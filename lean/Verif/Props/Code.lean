import Verif.System.Sitting
import Verif.Props.PpmMemoryDemo

/-!
# C81: the bits per character that the client reports
-/

namespace Mozolm.System
open Mozolm.Hub Mozolm.Server
open Mozolm.Ppm (Memory Learner)
variable {encode : Int → Str} {fuel : Nat} {o : Ppm.Options XR} {K : Nat} {M M0 : Memory} {ctxs : List (List Int)} {m0 : Ppm.Model Arith.xr}
  {orderN : List (Int × Nat) → List (Int × Nat)} {orderV : List (Str × XR) → List (Str × XR)}
  {models : List (Component Arith.xr)} {cfg : HubConfig XR} {h : Hub Arith.xr (Component Arith.xr)}
  {sort : List (XR × Str) → List (XR × Str)} {decode : Str → List Int}

/-- The context after a character that was taught. -/
theorem taught_context {M' : Memory} {V : Nat} {encode : Int → Str} (hg : M.Grounded K V) (hg' : M'.Grounded K V) {past : List Int} {c n : Int}
    (hM : M' = counted K (Ppm.alphabet m0.symbols encode) M (M.longest ((Ppm.alphabet m0.symbols encode).past past)) [c] n) :
    M'.longest (onto (Ppm.alphabet m0.symbols encode) [c] (M.longest ((Ppm.alphabet m0.symbols encode).past past))) =
      M'.longest ((Ppm.alphabet m0.symbols encode).past (past ++ [c])) := by
  rw [Ppm.past_snoc]
  refine Memory.learnt_longest hg hg' (fun d z hd => ?_) (Ppm.typedLabel_ne _ _ _)
  rw [hM, counted] at hd
  split at hd
  · exact Memory.learn_count _ _ _ hd
  · exact .inl hd

/-- A character of the texts considered: it has an encoding that is decoded to it. -/
def Writable (encode : Int → Str) (decode : Str → List Int) (c : Int) : Prop := 0 ≤ c ∧ encode c ≠ [] ∧ decode (encode c) = [c]

theorem Sitting.line (hf : (env Arith.xr encode fuel orderN orderV).Fair) (hl : Learner o K M0 m0) (hd : Ppm.Dense m0.symbols m0.chars)
    (hsy : ∀ e ∈ m0.symbols, 0 < e.1 → e.2 ≠ []) (hE : Client.Rearranges (Client.Env.xr sort decode)) (h0 : decode [] = [])
    (hv : Serving encode fuel orderN orderV models cfg) (text : List Int) (ht : ∀ c ∈ text, Writable encode decode c) :
    ∀ {M : Memory} {ctxs : List (List Int)} {w w' : Client.World XR (Hub Arith.xr (Component Arith.xr) × (Nat → XR))} {past : List Int} {s : Nat}
      {r : LMScores XR} {n k : Nat} {b : ℝ} {out : Option (Client.Totals XR)},
    Sitting encode fuel orderN orderV K m0 models cfg M ctxs w.srv.1 →
    NameAt 0 ctxs (M.longest ((Ppm.alphabet m0.symbols encode).past past)) w.srv.1 s →
    Tells o m0.symbols m0.chars M (M.longest ((Ppm.alphabet m0.symbols encode).past past)) r →
    Client.bitsLine (A := Arith.xr) (Client.Env.xr sort decode) (service (env Arith.xr encode fuel orderN orderV) decode) w ⟨n, k, .fin b⟩ s
      (sort (r.probs.zip r.symbols)) (text.map encode ++ [[]]) = .ok (out, w') → w'.srv.1.selfRecycled = false →
    ∃ (k' : Nat) (b' : ℝ) (M' : Memory) (ctxs' : List (List Int)), Coded o K m0.chars (Ppm.alphabet m0.symbols encode) M past text k' b' M' ∧
      out = some ⟨n + (text.length + 1), k + k', .fin (b + b')⟩ ∧ Sitting encode fuel orderN orderV K m0 models cfg M' ctxs' w'.srv.1 := by
  induction text with
  | nil =>
    intro M ctxs w w' past s r n k b out hs hn htell he hg
    obtain ⟨⟨p, hp, q1, q2⟩, _⟩ := htell.bits (encode := encode) hd hsy hE
    rw [List.map_nil, List.nil_append, Client.bitsLine] at he
    obtain ⟨b1, e1, he⟩ := bind_ok.1 he
    rw [q2] at e1
    cases e1
    rw [q1] at he
    simp only [Bool.false_eq_true, if_false] at he
    generalize hu : Client.updateCountGetDestStateScore (A := Arith.xr) (Client.Env.xr sort decode)
      (service (env Arith.xr encode fuel orderN orderV) decode) w [] s 1 = u at he
    obtain ⟨u, w1⟩ := u
    have hw : w1 = w' := by
      cases u with
      | none => cases he; rfl
      | some x => cases he; rfl
    subst hw
    obtain ⟨ctxs', r', k', rfl, hs', _⟩ := hs.dest hf hl hd hv hn h0 (by simp) (by simp) hu hg
    cases he
    have hM : counted K (Ppm.alphabet m0.symbols encode) M (M.longest ((Ppm.alphabet m0.symbols encode).past past)) [] 1 = M := by
      simp [counted, Memory.learn]
    rw [hM] at hs'
    exact ⟨0, charBits p, M, ctxs', .stop hp, rfl, hs'⟩
  | cons c text ih =>
    intro M ctxs w w' past s r n k b out hs hn htell he hg
    obtain ⟨t1, t2, t3⟩ := ht c (by simp)
    obtain ⟨_, hch⟩ := htell.bits (encode := encode) hd hsy hE
    obtain ⟨hknown, hunknown⟩ := hch c t2
    rw [List.map_cons, List.cons_append, Client.bitsLine] at he
    obtain ⟨b1, e1, he⟩ := bind_ok.1 he
    simp only at he
    generalize hu : Client.updateCountGetDestStateScore (A := Arith.xr) (Client.Env.xr sort decode)
      (service (env Arith.xr encode fuel orderN orderV) decode) w (encode c) s 1 = u at he
    obtain ⟨u, w1⟩ := u
    have hg1 : w1.srv.1.selfRecycled = false := by
      cases u with
      | none => cases he; exact hg
      | some x =>
        have hfu := further_line (A := Arith.xr) (E := Client.Env.xr sort decode) (decode := decode) rfl _ he
        have hfd := further_dest (A := Arith.xr) (E := Client.Env.xr sort decode) (w := w) (env := env Arith.xr encode fuel orderN orderV) (decode := decode) rfl (encode c) s 1
        rw [hu] at hfd
        exact ghost_false (hfu.good hf (hfd.good hf hs.ready.own.inv).inv) hg
    obtain ⟨ctxs', r', s', rfl, hs', hn', ht', _⟩ := hs.dest hf hl hd hv hn t3 (by simpa using t1) (by simp) hu hg1
    obtain ⟨m, hk⟩ := hs.ready.keep
    obtain ⟨m', hk'⟩ := hs'.ready.keep
    have hctx := taught_context hk.grounded hk'.grounded rfl
    rw [hctx] at hn' ht'
    have huse : counted K (Ppm.alphabet m0.symbols encode) M (M.longest ((Ppm.alphabet m0.symbols encode).past past)) [c] 1 =
        M.use K m0.chars (Ppm.alphabet m0.symbols encode) (.learn past [c] 1) := rfl
    rw [huse] at hn' ht' hs'
    simp only at he
    by_cases hty : 0 < (Ppm.alphabet m0.symbols encode).typed c
    · obtain ⟨p, hp, q1, q2⟩ := hknown hty
      rw [q2] at e1
      cases e1
      rw [q1] at he
      simp only [Bool.false_eq_true, if_false] at he
      obtain ⟨k', b', M', ctxs'', l1, l2, l3⟩ := ih (fun d hd => ht d (by simp [hd])) (k := k) (b := b + charBits p) hs' hn' ht' he hg
      refine ⟨k', charBits p + b', M', ctxs'', .known hty hp l1, ?_, l3⟩
      rw [l2, List.length_cons, ← add_assoc b, show n + 1 + (text.length + 1) = n + (text.length + 1 + 1) by omega]
    · have hty' : (Ppm.alphabet m0.symbols encode).typed c < 0 := by
        have : (Ppm.alphabet m0.symbols encode).typed c ≠ 0 := Ppm.typedLabel_ne _ _ _
        omega
      obtain ⟨q1, q2⟩ := hunknown hty'
      rw [q2] at e1
      cases e1
      rw [q1] at he
      simp only [if_true] at he
      obtain ⟨k', b', M', ctxs'', l1, l2, l3⟩ := ih (fun d hd => ht d (by simp [hd])) (k := k + 1) (b := b + charBits 0) hs' hn' ht' he hg
      refine ⟨k' + 1, charBits 0 + b', M', ctxs'', .unknown hty' l1, ?_, l3⟩
      rw [l2, List.length_cons, ← add_assoc b, show n + 1 + (text.length + 1) = n + (text.length + 1 + 1) by omega,
        show k + 1 + k' = k + (k' + 1) by omega]

theorem Sitting.lines (hf : (env Arith.xr encode fuel orderN orderV).Fair) (hl : Learner o K M0 m0) (hd : Ppm.Dense m0.symbols m0.chars)
    (hsy : ∀ e ∈ m0.symbols, 0 < e.1 → e.2 ≠ []) (hE : Client.Rearranges (Client.Env.xr sort decode)) (h0 : decode [] = [])
    (hv : Serving encode fuel orderN orderV models cfg) (file : List (List Int)) (ht : ∀ line ∈ file, ∀ c ∈ line, Writable encode decode c) :
    ∀ {M : Memory} {ctxs : List (List Int)} {w w' : Client.World XR (Hub Arith.xr (Component Arith.xr) × (Nat → XR))}
      {n k : Nat} {b : ℝ} {out : Option (Client.Totals XR)},
    Sitting encode fuel orderN orderV K m0 models cfg M ctxs w.srv.1 →
    Client.bitsLines (A := Arith.xr) (Client.Env.xr sort decode) (service (env Arith.xr encode fuel orderN orderV) decode) w ⟨n, k, .fin b⟩
      (file.map fun line => line.map encode) = .ok (out, w') → w'.srv.1.selfRecycled = false →
    ∃ (k' : Nat) (b' : ℝ) (M' : Memory) (ctxs' : List (List Int)), CodedFile o K m0.chars (Ppm.alphabet m0.symbols encode) M file k' b' M' ∧
      out = some ⟨n + (file.map fun line => line.length + 1).sum, k + k', .fin (b + b')⟩ ∧
      Sitting encode fuel orderN orderV K m0 models cfg M' ctxs' w'.srv.1 := by
  induction file with
  | nil =>
    intro M ctxs w w' n k b out hs he hg
    cases he
    exact ⟨0, 0, M, ctxs, .nil, by simp, hs⟩
  | cons line lines ih =>
    intro M ctxs w w' n k b out hs he hg
    rw [List.map_cons, Client.bitsLines] at he
    obtain ⟨m, hk⟩ := hs.ready.keep
    have hn : NameAt 0 ctxs (M.longest ((Ppm.alphabet m0.symbols encode).past [])) w.srv.1 0 := by
      have : M.longest ((Ppm.alphabet m0.symbols encode).past []) = [0] := M.longest_self hk.grounded.nil hk.grounded.start
      rw [this]; exact hs.ready.zero
    generalize hu : Client.getLMScores (A := Arith.xr) (Client.Env.xr sort decode)
      (service (env Arith.xr encode fuel orderN orderV) decode) w [] 0 = u at he
    obtain ⟨u, w1⟩ := u
    obtain ⟨r, rfl, hs1, hn1, ht1, _⟩ := hs.scores (s := 0) hf hl hd h0 hn hu
    simp only at he
    obtain ⟨⟨l, w2⟩, e1, he⟩ := bind_ok.1 he
    have hg2 : w2.srv.1.selfRecycled = false := by
      cases l with
      | none => cases he; exact hg
      | some x =>
        have hfu := further_lines (A := Arith.xr) (E := Client.Env.xr sort decode) (decode := decode) rfl h0 _ he
        have hfd := further_line (A := Arith.xr) (E := Client.Env.xr sort decode) (decode := decode) rfl _ e1
        exact ghost_false (hfu.good hf (hfd.good hf hs1.ready.own.inv).inv) hg
    obtain ⟨k1, b1, M1, ctxs1, l1, rfl, l3⟩ := hs1.line hf hl hd hsy hE h0 hv line (ht line (by simp)) (s := 0) hn1 ht1 e1 hg2
    obtain ⟨k2, b2, M2, ctxs2, q1, q2, q3⟩ := ih (fun l hl => ht l (by simp [hl])) l3 he hg
    refine ⟨k1 + k2, b1 + b2, M2, ctxs2, .cons l1 q1, ?_, q3⟩
    rw [q2, List.map_cons, List.sum_cons, ← add_assoc b, Nat.add_assoc n, Nat.add_assoc k]

/-- The figures can always be computed: no access beyond the listing. -/
theorem bits_ok {A : Arith} (E : Client.Env A) (scores : List (A.D × Str)) (sym : Str) :
    ∃ b, Client.calculateBits E (Client.findStringIndex scores sym) scores = .ok b := by
  unfold Client.calculateBits
  cases h : Client.findStringIndex scores sym with
  | none => exact ⟨_, rfl⟩
  | some i =>
    obtain ⟨h1, _⟩ := List.findIdx?_eq_some_iff_getElem.1 h
    simp only [List.getElem?_eq_getElem h1]
    exact ⟨_, rfl⟩

theorem line_ok {A : Arith} {ω : Type} (E : Client.Env A) (S : Client.Service A.D ω) (syms : List Str) :
    ∀ (w : Client.World A.D ω) (t : Client.Totals A.D) (s : Int) (scores : List (A.D × Str)), ∃ out w', Client.bitsLine E S w t s scores syms = .ok (out, w') := by
  induction syms with
  | nil => intro w t s scores; exact ⟨_, _, rfl⟩
  | cons sym syms ih =>
    intro w t s scores
    obtain ⟨b, hb⟩ := bits_ok E scores sym
    rw [Client.bitsLine]
    simp only [hb, ok_bind]
    cases (Client.updateCountGetDestStateScore E S w sym s 1).1 with
    | none => exact ⟨_, _, rfl⟩
    | some x => exact ih _ _ _ _

theorem lines_ok {A : Arith} {ω : Type} (E : Client.Env A) (S : Client.Service A.D ω) (lines : List (List Str)) :
    ∀ (w : Client.World A.D ω) (t : Client.Totals A.D), ∃ out w', Client.bitsLines E S w t lines = .ok (out, w') := by
  induction lines with
  | nil => intro w t; exact ⟨_, _, rfl⟩
  | cons line lines ih =>
    intro w t
    rw [Client.bitsLines]
    cases (Client.getLMScores E S w [] 0).1 with
    | none => exact ⟨_, _, rfl⟩
    | some scores =>
      obtain ⟨out, w1, e1⟩ := line_ok E S (line ++ [[]]) (Client.getLMScores E S w [] 0).2 t 0 scores
      simp only [e1, ok_bind]
      cases out with
      | none => exact ⟨_, _, rfl⟩
      | some t' => exact ih _ _

/-- **C81** What is coded is learnt, line by line, each character after those before it in the line; and the bits, the
number of unknown characters and the memory afterwards are determined. -/
theorem Coded.memory {V : Nat} {a : Ppm.Alphabet} {past text : List Int} {k : Nat} {b : ℝ} {M M' : Memory} (h : Coded o K V a M past text k b M') :
    M' = M.uses K V a (Ppm.spelled 1 past text) := by
  induction h with
  | stop _ => rfl
  | known _ _ _ ih => exact ih
  | unknown _ _ ih => exact ih

theorem Coded.unique {V : Nat} {a : Ppm.Alphabet} {past text : List Int} {k k' : Nat} {b b' : ℝ} {M M' M'' : Memory} (h : Coded o K V a M past text k b M')
    (h' : Coded o K V a M past text k' b' M'') : k = k' ∧ b = b' ∧ M' = M'' := by
  induction h generalizing k' b' M'' with
  | stop hp => cases h' with | stop hq => exact ⟨rfl, by rw [hp.unique hq], rfl⟩
  | known ht hp _ ih =>
    cases h' with
    | known _ hq h2 =>
      obtain ⟨e1, e2, e3⟩ := ih h2
      exact ⟨e1, by rw [e2, hp.unique hq], e3⟩
    | unknown hn _ => omega
  | unknown ht _ ih =>
    cases h' with
    | known hn _ _ => omega
    | unknown _ h2 =>
      obtain ⟨e1, e2, e3⟩ := ih h2
      exact ⟨by rw [e1], by rw [e2], e3⟩

theorem C81_learnt {V : Nat} {a : Ppm.Alphabet} {file : List (List Int)} {k : Nat} {b : ℝ} {M M' : Memory} (h : CodedFile o K V a M file k b M') :
    M' = file.foldl (fun M line => M.uses K V a (Ppm.spelled 1 [] line)) M := by
  induction h with
  | nil => rfl
  | cons h1 _ ih => rw [ih, List.foldl_cons, h1.memory]

theorem C81_unique {V : Nat} {a : Ppm.Alphabet} {file : List (List Int)} {k k' : Nat} {b b' : ℝ} {M M' M'' : Memory} (h : CodedFile o K V a M file k b M')
    (h' : CodedFile o K V a M file k' b' M'') : k = k' ∧ b = b' ∧ M' = M'' := by
  induction h generalizing k' b' M'' with
  | nil => cases h'; exact ⟨rfl, rfl, rfl⟩
  | cons h1 _ ih =>
    cases h' with
    | cons g1 g2 =>
      obtain ⟨e1, e2, rfl⟩ := h1.unique g1
      obtain ⟨e4, e5, e6⟩ := ih g2
      exact ⟨by omega, by rw [e2, e5], e6⟩

theorem serving {models : List (Component Arith.xr)} (hs : ∀ m ∈ models, Served encode m) (hm : 0 < models.length) :
    ∃ bound, ∀ fuel, bound ≤ fuel → ∀ orderN orderV, (env Arith.xr encode fuel orderN orderV).Fair →
      ∀ cfg : HubConfig XR, (cfg.mixture = .interpolation → cfg.weights.length < 2) → Serving encode fuel orderN orderV models cfg := by
  obtain ⟨b1, h1⟩ := C72_service hs hm
  obtain ⟨b2, h2⟩ := C72_update_service hs hm
  refine ⟨max b1 b2, fun fuel hfu orderN orderV hf cfg hcfg => ⟨fun reqs h hr ctx x => ?_, fun reqs h hr x hx0 hx1 hx2 cs hcs n => ?_⟩⟩
  · obtain ⟨rep, h', e, _⟩ := (h1 fuel (by omega) orderN orderV hf cfg reqs h (fun x => by have := hcfg x; omega) hr).2 ctx x
    exact ⟨rep, h', e⟩
  · obtain ⟨rep, h', e, _⟩ := h2 fuel (by omega) orderN orderV hf cfg reqs h (fun x => by have := hcfg x; omega) hr x hx0 hx1 hx2 cs hcs n
    exact ⟨rep, h', e⟩

/-- The symbols of a model that was read. -/
theorem Learner.dense (hl : Learner o K M0 m0) : Ppm.Dense m0.symbols m0.chars := by
  obtain ⟨_, _, _, hd, _⟩ := hl.initial.known (Ppm.laws_of o hl.alpha hl.beta)
  exact hd

/-- **C81** The client measures the bits per character of a file with a server in front of a PPM model that learns, after
any history of requests. The measurement completes; if no state took its own place in the state buffer, in particular if
there is room, no request is refused, and the figures reported are the number of characters with one end for each line,
the number of unknown characters, and the average of the bits that the file costs when it is coded with the memory that
the history made, while it is learnt; afterwards the server has that memory. -/
theorem C81_bits (hl : Learner o K M0 m0) (hms : models.head? = some (.ppm m0)) (hs : ∀ m ∈ models, Served encode m)
    (hsy : ∀ e ∈ m0.symbols, 0 < e.1 → e.2 ≠ []) (hsort : ∀ l, (sort l).Perm l) (hdec : decode [] = []) :
    ∃ bound, ∀ fuel, bound ≤ fuel → ∀ orderN orderV, (env Arith.xr encode fuel orderN orderV).Fair →
      ∀ (cfg : HubConfig XR) reqs h, (cfg.mixture = .interpolation → cfg.weights.length < 2) → cfg.maxStates < 2 ^ 31 →
        Server.Reach (env Arith.xr encode fuel orderN orderV) models cfg reqs h →
        ∃ (h0 : Hub Arith.xr (Component Arith.xr)) (M : Memory),
          initializeModels (env Arith.xr encode fuel orderN orderV) models cfg = .ok (some h0) ∧
          Taught (env Arith.xr encode fuel orderN orderV) K (Ppm.alphabet m0.symbols encode) h0 M0 reqs h M ∧
          ∀ file : List (List Int), file ≠ [] → (∀ line ∈ file, ∀ c ∈ line, 0 ≤ c ∧ encode c ≠ [] ∧ decode (encode c) = [c]) →
            ∀ (random : Nat → XR) (sent : List (Client.Rpc XR)),
            ∃ (res : Option (Client.BitsReport XR)) (w' : Client.World XR (Hub Arith.xr (Component Arith.xr) × (Nat → XR))),
              Client.calcBitsPerCharacter (Client.Env.xr sort decode) (service (env Arith.xr encode fuel orderN orderV) decode)
                ⟨(h, random), sent⟩ (file.map fun line => line.map encode) = .ok (res, w') ∧
              (1 + (reqs.map Request.symbols).sum + 4 * (file.map List.length).sum ≤ cfgMax (A := Arith.xr) cfg → w'.srv.1.selfRecycled = false) ∧
              (w'.srv.1.selfRecycled = false → ∃ (k : Nat) (b : ℝ) (M' : Memory),
                CodedFile o K m0.chars (Ppm.alphabet m0.symbols encode) M file k b M' ∧
                res = some ⟨(file.map fun line => line.length + 1).sum, k, .fin (b / ((file.map fun line => line.length + 1).sum : ℕ))⟩ ∧
                AsksWell (env Arith.xr encode fuel orderN orderV) o (Ppm.alphabet m0.symbols encode) m0.symbols m0.chars M' w'.srv.1 ∧
                TeachesWell (env Arith.xr encode fuel orderN orderV) o K (Ppm.alphabet m0.symbols encode) m0.symbols m0.chars M' w'.srv.1) := by
  obtain ⟨bound, hb⟩ := served_live hs
  have hm : 0 < models.length := by
    cases models with
    | nil => cases hms
    | cons => simp
  obtain ⟨bound', hb'⟩ := serving hs hm
  refine ⟨max bound bound', fun fuel hfu orderN orderV hf cfg reqs h hcfg hmx hr => ?_⟩
  have hw := weights_single hcfg
  have hmax : cfgMax (A := Arith.xr) cfg < 2 ^ 31 := by unfold cfgMax; split <;> omega
  obtain ⟨h0, M, ctxs, k1, k2, k3, k4, k5⟩ := ready_reach hf hl (hb fuel (by omega)) (j := 0) (by rw [← hms, List.head?_eq_getElem?]) (by omega) hr
  refine ⟨h0, M, k1, k2, fun file hne ht random sent => ?_⟩
  have hz : Arith.xr.ofInt 0 = .fin 0 := by simp [Arith.xr]
  obtain ⟨out, w', e⟩ := lines_ok (A := Arith.xr) (Client.Env.xr sort decode) (service (env Arith.xr encode fuel orderN orderV) decode)
    (file.map fun line => line.map encode) ⟨(h, random), sent⟩ ⟨0, 0, .fin 0⟩
  have hfu := further_lines (A := Arith.xr) (E := Client.Env.xr sort decode) (decode := decode) rfl hdec _ e
  have hsum : ((file.map fun line => line.map encode).map fun l => (l.map fun x => (decode x).length).sum).sum = (file.map List.length).sum := by
    rw [List.map_map]
    congr 1
    refine List.map_congr_left fun line hline => ?_
    simp only [Function.comp, List.map_map]
    have : line.map ((fun x => (decode x).length) ∘ encode) = line.map fun _ => 1 :=
      List.map_congr_left fun c hc => by simp [(ht line hline c hc).2.2]
    rw [this]; simp
  rw [hsum] at hfu
  have hgood : w'.srv.1.selfRecycled = false → ∃ (k : Nat) (b : ℝ) (M' : Memory),
      CodedFile o K m0.chars (Ppm.alphabet m0.symbols encode) M file k b M' ∧
      out = some ⟨(file.map fun line => line.length + 1).sum, k, .fin b⟩ ∧
      AsksWell (env Arith.xr encode fuel orderN orderV) o (Ppm.alphabet m0.symbols encode) m0.symbols m0.chars M' w'.srv.1 ∧
      TeachesWell (env Arith.xr encode fuel orderN orderV) o K (Ppm.alphabet m0.symbols encode) m0.symbols m0.chars M' w'.srv.1 := by
    intro hg
    have hsit : Sitting encode fuel orderN orderV K m0 models cfg M ctxs h := ⟨⟨reqs, hr⟩, k3, by rw [k5]; omega, by rw [k4]; exact hmax⟩
    obtain ⟨k, b, M', ctxs', l1, l2, l3⟩ := Sitting.lines (w := ⟨(h, random), sent⟩) hf hl (Learner.dense hl) hsy hsort hdec
      (hb' fuel (by omega) orderN orderV hf cfg hcfg) file ht hsit e hg
    refine ⟨k, b, M', l1, ?_, l3.ready.asks hf hl l3.weights, l3.ready.teaches hf hl l3.weights l3.max⟩
    rw [l2, Nat.zero_add, Nat.zero_add, zero_add]
  have hpos : (0 : ℝ) < ((file.map fun line => line.length + 1).sum : ℕ) := by
    have : 0 < (file.map fun line => line.length + 1).sum := by
      cases file with
      | nil => exact absurd rfl hne
      | cons l ls => simp
    exact_mod_cast this
  have hroom : 1 + (reqs.map Request.symbols).sum + 4 * (file.map List.length).sum ≤ cfgMax (A := Arith.xr) cfg → w'.srv.1.selfRecycled = false := by
    intro hroom
    obtain ⟨more, f1, f2⟩ := hfu
    refine (C77_room hf (reach_append hr f1) ?_).1
    rw [List.map_append, List.sum_append]
    omega
  refine ⟨out.map fun t => ⟨t.chars, t.oov, Arith.xr.ddiv t.bits (Arith.xr.ofInt t.chars)⟩, w', ?_, hroom, fun hg => ?_⟩
  · rw [Client.calcBitsPerCharacter, hz, e]
    cases out <;> rfl
  · obtain ⟨k, b, M', l1, rfl, l3⟩ := hgood hg
    refine ⟨k, b, M', l1, ?_, l3⟩
    have : Arith.xr.ddiv (XR.fin b) (Arith.xr.ofInt ((file.map fun line => line.length + 1).sum : ℕ)) =
        .fin (b / ((file.map fun line => line.length + 1).sum : ℕ)) := by
      simp only [Arith.xr, XR.div, Int.cast_natCast]
      rw [if_neg hpos.ne']
    rw [Option.map_some]
    exact congrArg (fun x => some (Client.BitsReport.mk _ k x)) this

end Mozolm.System
