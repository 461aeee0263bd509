import Verif.System.Generating
import Verif.Props.Code

/-!
# C82: the texts that the client generates
-/

namespace Mozolm.System
open Mozolm.Hub Mozolm.Server
open Mozolm.Ppm (Memory Learner)
variable {encode : Int → Str} {fuel : Nat} {o : Ppm.Options XR} {K : Nat} {M M0 : Memory} {m0 : Ppm.Model Arith.xr}
  {orderN : List (Int × Nat) → List (Int × Nat)} {orderV : List (Str × XR) → List (Str × XR)}
  {models : List (Component Arith.xr)} {cfg : HubConfig XR} {h : Hub Arith.xr (Component Arith.xr)}
  {sort : List (XR × Str) → List (XR × Str)} {decode : Str → List Int}

/-- A character of the table. -/
def Known (symbols : SymbolTable) (encode : Int → Str) (decode : Str → List Int) (x : Int) : Prop :=
  0 ≤ x ∧ 0 < (Ppm.alphabet symbols encode).typed x ∧ decode (encode x) = [x]

theorem Known.mem {symbols : SymbolTable} {V : Nat} (hd : Ppm.Dense symbols V) {x : Int} (h : Known symbols encode decode x) :
    ∃ e ∈ symbols, 0 < e.1 ∧ e.2 = encode x := by
  obtain ⟨_, h2⟩ := told_known hd h.2.1
  cases hy : ((Ppm.alphabet symbols encode).typed x).toNat with
  | zero => have := h.2.1; omega
  | succ y =>
    rw [hy, List.getElem?_cons_succ, List.getElem?_map, List.getElem?_tail] at h2
    obtain ⟨e, e1, e2⟩ := Option.map_eq_some_iff.1 h2
    obtain ⟨e3, _⟩ := dense_get hd e1
    exact ⟨e, List.mem_of_getElem? e1, by omega, e2⟩

theorem typed_at {symbols : SymbolTable} {V : Nat} (hd : Ppm.Dense symbols V) {y : Nat} {e : Int × Str} (he : symbols[y + 1]? = some e)
    {x : Int} (hx : encode x = e.2) : (Ppm.alphabet symbols encode).typed x = (y + 1 : Nat) := by
  obtain ⟨e1, _⟩ := dense_get hd he
  have hfl : SymbolTable.findLabel symbols (encode x) = (y + 1 : Nat) := by
    unfold SymbolTable.findLabel
    cases hf : symbols.find? (fun e => e.2 == encode x) with
    | none =>
      have := List.find?_eq_none.1 hf e (List.mem_of_getElem? he)
      rw [hx] at this
      simp at this
    | some e' =>
      have hm' := List.mem_of_find?_eq_some hf
      have he2 : e'.2 = encode x := by simpa using List.find?_some hf
      obtain ⟨k, hk⟩ := List.mem_iff_getElem?.1 hm'
      obtain ⟨k1, k2⟩ := dense_get hd hk
      have : k = y + 1 := by
        have hk' : (symbols.map Prod.snd)[k]? = some (encode x) := by rw [List.getElem?_map, hk, ← he2]; rfl
        have hi' : (symbols.map Prod.snd)[y + 1]? = some (encode x) := by rw [List.getElem?_map, he, hx]; rfl
        exact (List.getElem?_inj (List.getElem?_eq_some_iff.1 hk').1 hd.nodup).1 (hk'.trans hi'.symm)
      simp only [k1, this]
  simp only [Ppm.alphabet, Ppm.typedLabel]
  rw [hfl, if_pos (by omega)]

theorem Drawn.unique {V : Nat} {a : Ppm.Alphabet} {M M' M'' : Memory} {c c' c'' xs : List Int} {q q' : ℝ} (h : Drawn o K V a M c xs q M' c') :
    Drawn o K V a M c xs q' M'' c'' → q = q' ∧ M' = M'' ∧ c' = c'' := by
  induction h generalizing q' M'' c'' with
  | nil => intro h'; cases h'; exact ⟨rfl, rfl, rfl⟩
  | cons h1 h2 h3 _ ih =>
    intro h'
    cases h' with
    | cons g1 g2 g3 g4 =>
      subst h3 g3
      obtain ⟨e1, e2, e3⟩ := ih g4
      exact ⟨by rw [h2.unique g2, e1], e2, e3⟩

/-- The chance of beginning with `xs`, and what happens then. -/
theorem Stage.begins (hf : (env Arith.xr encode fuel orderN orderV).Fair) (hl : Learner o K M0 m0) (hd : Ppm.Dense m0.symbols m0.chars)
    (hv : Serving encode fuel orderN orderV models cfg) (hE : Client.Rearranges (Client.Env.xr sort decode))
    (hc : Codes m0.symbols encode decode) {maxLen : Nat} (xs : List Int) (hx : ∀ x ∈ xs, Known m0.symbols encode decode x) :
    ∀ {M : Memory} {c : List Int} {h : Hub Arith.xr (Component Arith.xr)} {s n : Nat} {scores : List (XR × Str)} (sent : List (Client.Rpc XR)) {text : Str},
    Stage encode fuel orderN orderV o K m0 models cfg sort M c h s scores n → xs.length ≤ n →
    (∀ (ys zs : List Int) (z : Int), xs = ys ++ z :: zs → text.length + (ys.flatMap encode).length < maxLen) →
    ∃ (B : Nat → Set ℝ) (q : ℝ) (M' : Memory) (c' : List Int) (h' : Hub Arith.xr (Component Arith.xr)) (sent' : List (Client.Rpc XR)) (s' : Nat)
      (scores' : List (XR × Str)),
      Drawn o K m0.chars (Ppm.alphabet m0.symbols encode) M c xs q M' c' ∧ 0 < q ∧
      Stage encode fuel orderN orderV o K m0 models cfg sort M' c' h' s' scores' (n - xs.length) ∧
      (xs = [] → h' = h ∧ sent' = sent) ∧ (∀ i, MeasurableSet (B i)) ∧ ∏ i ∈ Finset.range xs.length, uniform (B i) = ENNReal.ofReal q ∧
      ∀ u : Nat → ℝ,
        ((∀ i < xs.length, u i ∈ B i) → ∀ f,
          Client.randLoop (A := Arith.xr) (Client.Env.xr sort decode) (service (env Arith.xr encode fuel orderN orderV) decode) maxLen (f + xs.length)
            ⟨(h, fun i => .fin (u i)), sent⟩ s scores text =
          if xs = [] ∨ (text ++ xs.flatMap encode).length < maxLen then
            Client.randLoop (A := Arith.xr) (Client.Env.xr sort decode) (service (env Arith.xr encode fuel orderN orderV) decode) maxLen f
              ⟨(h', fun i => .fin (u (i + xs.length))), sent'⟩ s' scores' (text ++ xs.flatMap encode)
          else .ok (Client.randFinish (text ++ xs.flatMap encode) maxLen, ⟨(h', fun i => .fin (u (i + xs.length))), sent'⟩)) ∧
        (¬ (∀ i < xs.length, u i ∈ B i) → ∀ f g w,
          Client.randLoop (A := Arith.xr) (Client.Env.xr sort decode) (service (env Arith.xr encode fuel orderN orderV) decode) maxLen f
            ⟨(h, fun i => .fin (u i)), sent⟩ s scores text = .ok (g, w) → ¬ (text ++ xs.flatMap encode) <+: g.text) := by
  have hsy : ∀ e ∈ m0.symbols, 0 < e.1 → e.2 ≠ [] := fun e he hp => by
    obtain ⟨_, _, _, h3, _⟩ := hc.char e he hp; exact h3
  induction xs with
  | nil =>
    intro M c h s n scores sent text hs _ _
    refine ⟨fun _ => Set.univ, 1, M, c, h, sent, s, scores, 
      .nil, one_pos, hs, fun _ => ⟨rfl, rfl⟩, fun _ => .univ, by simp, fun u => ⟨fun _ f => ?_, fun h => ?_⟩⟩
    · simp
    · exact absurd (fun i hi => absurd hi (by simp)) h
  | cons x xs ih =>
    intro M c h s n scores sent text hs hn hshort
    obtain ⟨x0, x1, x2⟩ := hx x (by simp)
    obtain ⟨n, rfl⟩ : ∃ k, n = k + 1 := ⟨n - 1, by simp at hn; omega⟩
    obtain ⟨ctxs, r, _, _, ht, hsc⟩ := hs.sits
    obtain ⟨hall, hone⟩ := ht.draw hd hsy hE
    obtain ⟨t1, t2⟩ := told_known hd x1
    obtain ⟨p, p0, p1, p2, p3⟩ := hone _ _ t1 t2
    rw [← hsc] at hall p2 p3
    obtain ⟨h1, sent1, s1, scores1, e1, hs1⟩ := hs.step hf hl hd hv sent x0 x2
    obtain ⟨B, q, M', c', h', sent', s', scores', d1, d0, d2, d9, d3, d4, d5⟩ := ih (fun y hy => hx y (by simp [hy])) sent1 (text := text ++ encode x) hs1
      (by simp at hn; omega) (fun ys zs z e => by
        have := hshort (x :: ys) zs z (by rw [e]; rfl)
        simp only [List.flatMap_cons, List.length_append] at this ⊢
        omega)
    have hxne : encode x ≠ [] := by
      obtain ⟨e, e2, e3, e4⟩ := Known.mem hd ⟨x0, x1, x2⟩
      rw [← e4]; exact hsy e e2 e3
    have htext : text.length < maxLen := by simpa using hshort [] xs x rfl
    refine ⟨fun i => match i with | 0 => {t : ℝ | picked scores (.fin t) = some (encode x)} | i + 1 => B i, p * q, M', c', h', sent', s', scores',
      .cons x1 p1 rfl d1, by positivity, ?_, fun e => absurd e (by simp), ?_, ?_, fun u => ⟨fun hu f => ?_, fun hu f g w he hpre => ?_⟩⟩
    · have : n + 1 - (x :: xs).length = n - xs.length := by simp
      rw [this]; exact d2
    · intro i
      cases i with
      | zero => exact p2
      | succ i => exact d3 i
    · rw [List.length_cons, Finset.prod_range_succ', d4, p3, ← ENNReal.ofReal_mul d0.le, mul_comm]
    · have hp0 : picked scores (.fin (u 0)) = some (encode x) := hu 0 (by simp)
      rw [List.length_cons, ← Nat.add_assoc, randLoop_step]
      simp only [hp0, if_neg hxne]
      rw [e1]
      simp only
      have hrest := (d5 (fun i => u (i + 1))).1 (fun i hi => hu (i + 1) (by simpa using hi)) f
      rw [List.flatMap_cons, ← List.append_assoc]
      cases hxs : xs with
      | nil =>
        subst hxs
        obtain ⟨rfl, rfl⟩ := d9 rfl
        simp only [List.length_nil, List.flatMap_nil, List.append_nil, true_or, if_true, Nat.add_zero] at hrest
        simp only [reduceCtorEq, false_or, List.flatMap_nil, List.append_nil, List.length_nil, Nat.add_zero]
        split
        · exact hrest
        · rfl
      | cons y ys =>
        subst hxs
        have hlt : (text ++ encode x).length < maxLen := by
          have := hshort [x] ys y rfl
          simpa using this
        rw [if_pos hlt]
        simp only [reduceCtorEq, false_or] at hrest ⊢
        exact hrest
    · cases f with
      | zero => cases he
      | succ f =>
        rw [randLoop_step] at he
        rw [List.flatMap_cons, ← List.append_assoc] at hpre
        obtain ⟨y, sym, hy, hsym, hpick⟩ := hall (u 0)
        simp only [hpick] at he
        by_cases hu0 : sym = encode x
        · subst hu0
          simp only [if_neg hxne] at he
          rw [e1] at he
          simp only at he
          have hbad : ¬ ∀ i < xs.length, u (i + 1) ∈ B i := by
            intro hok
            refine hu fun i hi => ?_
            cases i with
            | zero => exact hpick
            | succ i => exact hok i (by simpa using hi)
          cases hxs : xs with
          | nil => subst hxs; exact hbad (fun i hi => absurd hi (by simp))
          | cons y ys =>
            have hlt : (text ++ encode x).length < maxLen := by
              have := hshort [x] ys y (by rw [hxs]; rfl)
              simpa using this
            rw [if_pos hlt] at he
            exact (d5 (fun i => u (i + 1))).2 hbad f g w he hpre
        · by_cases hs0 : sym = []
          · simp only [hs0, if_true] at he
            cases he
            have := hpre.length_le
            have hlen : (Client.randFinish text maxLen).text = text := by
              unfold Client.randFinish
              rw [if_neg (by omega)]
            rw [hlen] at this
            have : 0 < (encode x).length := List.length_pos_iff.2 hxne
            simp only [List.length_append] at *
            omega
          · simp only [if_neg hs0] at he
            have hpre2 : text ++ sym <+: g.text := by
              cases hr : Client.updateCountGetDestStateScore (A := Arith.xr) (Client.Env.xr sort decode)
                  (service (env Arith.xr encode fuel orderN orderV) decode) ⟨(h, later fun i => .fin (u i)), sent⟩ sym s 1 with
              | mk a w1 =>
                rw [hr] at he
                cases a with
                | none => cases he; exact List.prefix_refl _
                | some z =>
                  simp only at he
                  split at he
                  · exact randLoop_prefix f he
                  · cases he
                    unfold Client.randFinish
                    split <;> simp
            have hpre1 : text ++ encode x <+: g.text := (List.prefix_append _ _).trans hpre
            have hin : ∃ e ∈ m0.symbols, 0 < e.1 ∧ e.2 = sym := by
              cases y with
              | zero => simp at hsym; exact absurd hsym hs0
              | succ y =>
                rw [List.getElem?_cons_succ, List.getElem?_map, List.getElem?_tail] at hsym
                obtain ⟨e, e1, e2⟩ := Option.map_eq_some_iff.1 hsym
                obtain ⟨e3, _⟩ := dense_get hd e1
                exact ⟨e, List.mem_of_getElem? e1, by omega, e2⟩
            obtain ⟨e, q1, q2, q3⟩ := hin
            obtain ⟨e', q1', q2', q3'⟩ := Known.mem hd ⟨x0, x1, x2⟩
            rcases List.prefix_or_prefix_of_prefix hpre1 hpre2 with hh | hh
            · rw [List.prefix_append_right_inj] at hh
              rw [← q3, ← q3'] at hh
              exact hu0 (by rw [← q3, ← q3', hc.start e' q1' e q1 q2' q2 hh])
            · rw [List.prefix_append_right_inj] at hh
              rw [← q3, ← q3'] at hh
              exact hu0 (by rw [← q3, ← q3', hc.start e q1 e' q1' q2 q2' hh])

/-- What is generated is always a text of characters of the table. -/
theorem Stage.outcome (hf : (env Arith.xr encode fuel orderN orderV).Fair) (hl : Learner o K M0 m0) (hd : Ppm.Dense m0.symbols m0.chars)
    (hv : Serving encode fuel orderN orderV models cfg) (hE : Client.Rearranges (Client.Env.xr sort decode))
    (hc : Codes m0.symbols encode decode) {maxLen : Nat} : ∀ (f : Nat)
    {M : Memory} {c : List Int} {h : Hub Arith.xr (Component Arith.xr)} {s : Nat} {scores : List (XR × Str)} (sent : List (Client.Rpc XR)) {text : Str} (n : Nat)
    (u : Nat → ℝ),
    Stage encode fuel orderN orderV o K m0 models cfg sort M c h s scores n → text.length < maxLen → maxLen ≤ text.length + n → n ≤ f →
    ∃ (xs : List Int) (q : ℝ) (M' : Memory) (c' : List Int) (ctxs' : List (List Int)) (w : Client.World XR (Hub Arith.xr (Component Arith.xr) × (Nat → XR))),
      (∀ x ∈ xs, Known m0.symbols encode decode x) ∧
      Drawn o K m0.chars (Ppm.alphabet m0.symbols encode) M c xs q M' c' ∧
      Sitting encode fuel orderN orderV K m0 models cfg M' ctxs' w.srv.1 ∧
      Client.randLoop (A := Arith.xr) (Client.Env.xr sort decode) (service (env Arith.xr encode fuel orderN orderV) decode) maxLen f
        ⟨(h, fun i => .fin (u i)), sent⟩ s scores text = .ok (Client.randFinish (text ++ xs.flatMap encode) maxLen, w)
  | 0, _, _, _, _, _, _, _, _, _, _, _, _, _ => by omega
  | f + 1, M, c, h, s, scores, sent, text, n, u, hs, h1, h2, h3 => by
    have hsy : ∀ e ∈ m0.symbols, 0 < e.1 → e.2 ≠ [] := fun e he hp => by
      obtain ⟨_, _, _, h3, _⟩ := hc.char e he hp; exact h3
    obtain ⟨n, rfl⟩ : ∃ k, n = k + 1 := ⟨n - 1, by omega⟩
    obtain ⟨ctxs, r, hsit, _, ht, hsc⟩ := hs.sits
    obtain ⟨hall, hone⟩ := ht.draw hd hsy hE
    obtain ⟨y, sym, hy, hsym, hpick⟩ := hall (u 0)
    obtain ⟨p, _, hp, _, _⟩ := hone y sym hy hsym
    rw [← hsc] at hpick
    rw [randLoop_step]
    simp only [hpick]
    cases y with
    | zero =>
      have hs0 : sym = [] := by simpa using hsym.symm
      rw [if_pos hs0]
      exact ⟨[], 1, M, c, ctxs, _, by simp, .nil, hsit, by simp; rfl⟩
    | succ y =>
      rw [List.getElem?_cons_succ, List.getElem?_map, List.getElem?_tail] at hsym
      obtain ⟨e, e1, e2⟩ := Option.map_eq_some_iff.1 hsym
      obtain ⟨e3, _⟩ := dense_get hd e1
      obtain ⟨x, x1, x2, x3, x4⟩ := hc.char e (List.mem_of_getElem? e1) (by omega)
      have hty := typed_at hd e1 x2
      subst e2
      rw [← x2] at x3 x4 ⊢
      have hk : Known m0.symbols encode decode x := ⟨x1, by omega, x4⟩
      obtain ⟨h', sent', s', scores', k1, k2⟩ := hs.step hf hl hd hv sent x1 x4
      rw [if_neg x3, k1]
      simp only
      split
      · next hlt =>
        have hlen : 0 < (encode x).length := List.length_pos_iff.2 x3
        obtain ⟨xs, q, M', c', ctxs', w, l1, l2, l3, l4⟩ := Stage.outcome hf hl hd hv hE hc f sent' (text := text ++ encode x) n (fun i => u (i + 1)) k2 hlt
          (by simp only [List.length_append]; omega) (by omega)
        refine ⟨x :: xs, p * q, M', c', ctxs', w, ?_, .cons hk.2.1 (by rw [hty]; exact hp) rfl l2, l3, ?_⟩
        · intro z hz
          rcases List.mem_cons.1 hz with rfl | hz
          · exact hk
          · exact l1 z hz
        · rw [List.flatMap_cons, ← List.append_assoc]; exact l4
      · obtain ⟨ctxs', _, q1, _⟩ := k2.sits
        refine ⟨[x], p * 1, _, _, ctxs', ⟨(h', later fun i => .fin (u i)), sent'⟩, by simpa using hk, .cons hk.2.1 (by rw [hty]; exact hp) rfl .nil, q1, ?_⟩
        simp

/-- The beginning of `RandGen`: the state of the context and its scores. -/
theorem Sitting.start (hf : (env Arith.xr encode fuel orderN orderV).Fair) (hl : Learner o K M0 m0) (hd : Ppm.Dense m0.symbols m0.chars)
    (hdec : decode [] = []) {ctxs : List (List Int)} (hs : Sitting encode fuel orderN orderV K m0 models cfg M ctxs h) {ctx : Str}
    (hpos : ∀ c ∈ decode ctx, 0 ≤ c) {n : Nat}
    (hroom : ∀ h', Further (env Arith.xr encode fuel orderN orderV) ((decode ctx).length + 4 * n) h h' → h'.selfRecycled = false)
    (sent : List (Client.Rpc XR)) :
    ∃ (h1 : Hub Arith.xr (Component Arith.xr)) (s : Nat) (c : List Int) (sent1 : List (Client.Rpc XR)) (scores : List (XR × Str)),
      M.known c ∧ c <+: (Ppm.alphabet m0.symbols encode).past (decode ctx) ∧ (decode ctx = [] → c = [0]) ∧
      Stage encode fuel orderN orderV o K m0 models cfg sort M c h1 s scores n ∧
      ∀ (u : Nat → XR) (f : Nat),
        Client.randGen (A := Arith.xr) (Client.Env.xr sort decode) (service (env Arith.xr encode fuel orderN orderV) decode) f ⟨(h, u), sent⟩ ctx =
        Client.randLoop (A := Arith.xr) (Client.Env.xr sort decode) (service (env Arith.xr encode fuel orderN orderV) decode) (128 + ctx.length) f
          ⟨(h1, u), sent1⟩ s scores ctx := by
  have hcl := closedOn Arith.xr encode fuel
  have hfg : (genv encode fuel orderN orderV).Fair := hf.guard
  obtain ⟨r, h1, e1, g1, _⟩ := contextLoop_ok hfg hs.ready.own.inv 0 (decode ctx)
  have hnx : Server.getNextState (env Arith.xr encode fuel orderN orderV) h (decode ctx) (-1) = .ok (.ok r, h1) := by
    rw [getNextState_guard hf hcl hs.ready.own]
    change Server.getNextState (genv encode fuel orderN orderV) h (decode ctx) (-1) = _
    simp only [Server.getNextState, contextState, show toInt32 (-1) < 0 by decide, if_true, e1, ok_bind]
  have hfu := further_next (env := env Arith.xr encode fuel orderN orderV) (h := h) (decode ctx) (-1)
  rw [hnx] at hfu
  change Further _ _ h h1 at hfu
  obtain ⟨k, c, rfl, k1, k2, k3, k4, k5, _⟩ := hs.ready.context hf hl hpos e1 (hroom _ (hfu.mono (by omega)))
  have hs1 := hs.further hf k1 hfu
  generalize hu : Client.getLMScores (A := Arith.xr) (Client.Env.xr sort decode) (service (env Arith.xr encode fuel orderN orderV) decode)
    ⟨(h1, fun _ => .fin 0), sent ++ [.nextState ctx (-1) (some (k : Int))]⟩ [] k = a
  obtain ⟨a, w⟩ := a
  obtain ⟨r, rfl, hs2, hn2, ht2, _⟩ := Sitting.scores (w := ⟨(h1, fun _ => .fin 0), sent ++ [.nextState ctx (-1) (some (k : Int))]⟩) hf hl hd hdec hs1 k2 hu
  have hfu2 := further_scores (A := Arith.xr) (env := env Arith.xr encode fuel orderN orderV) (decode := decode) (E := Client.Env.xr sort decode)
    (w := ⟨(h1, fun _ => .fin 0), sent ++ [.nextState ctx (-1) (some (k : Int))]⟩) [] k
  rw [hu, hdec] at hfu2
  refine ⟨w.srv.1, k, c, w.sent, _, k3, k4, k5, ⟨⟨ctxs, r, hs2, hn2, ht2, rfl⟩, fun h' hh => hroom _ (((hfu.trans hfu2).trans hh).mono (by simp))⟩, fun u f => ?_⟩
  simp only [Client.randGen, Client.rpcNextState]
  have : (service (env Arith.xr encode fuel orderN orderV) decode).nextState (h, u) ctx (-1) = (some (k : Int), (h1, u)) := by
    simp only [service, hnx, replied]
  rw [this]
  simp only
  rw [scores_random (A := Arith.xr) (fun _ => XR.fin 0) u, hu]
  rfl

/-- The probability of a box of random numbers. -/
theorem uniforms_box (B : Nat → Set ℝ) (hB : ∀ i, MeasurableSet (B i)) (n : Nat) :
    uniforms {u | ∀ i < n, u i ∈ B i} = ∏ i ∈ Finset.range n, uniform (B i) := by
  have : {u : Nat → ℝ | ∀ i < n, u i ∈ B i} = Set.pi (Finset.range n) B := by
    ext u; simp [Set.pi]
  rw [this, uniforms, MeasureTheory.Measure.infinitePi_pi _ (fun i _ => hB i)]

/-- **C82** The client generates a text with a server in front of a PPM model that learns, after any history of requests
with room in the state table. With independent uniform random numbers, the text begins with the given characters with
exactly the probability that the memory of the history gives them one after the other while they are learnt, from a known
context that the given text ends with (the beginning of string, if there is none); and it is exactly this text with the
probability that the end of string has then in addition. Whatever the numbers, no request is refused, the text consists of
characters of the table and has the remark about the limit exactly if the generated characters fill 128 bytes; and it has been
learnt. -/
theorem C82_generation (hl : Learner o K M0 m0) (hms : models.head? = some (.ppm m0)) (hs : ∀ m ∈ models, Served encode m)
    (hc : Codes m0.symbols encode decode) (hsort : ∀ l, (sort l).Perm l) (hdec : decode [] = []) :
    ∃ bound, ∀ fuel, bound ≤ fuel → ∀ orderN orderV, (env Arith.xr encode fuel orderN orderV).Fair →
      ∀ (cfg : HubConfig XR) reqs h, (cfg.mixture = .interpolation → cfg.weights.length < 2) → cfg.maxStates < 2 ^ 31 →
        Server.Reach (env Arith.xr encode fuel orderN orderV) models cfg reqs h →
        ∃ (h0 : Hub Arith.xr (Component Arith.xr)) (M : Memory),
          initializeModels (env Arith.xr encode fuel orderN orderV) models cfg = .ok (some h0) ∧
          Taught (env Arith.xr encode fuel orderN orderV) K (Ppm.alphabet m0.symbols encode) h0 M0 reqs h M ∧
          ∀ ctx : Str, (∀ c ∈ decode ctx, 0 ≤ c) →
            1 + (reqs.map Request.symbols).sum + (decode ctx).length + 512 ≤ cfgMax (A := Arith.xr) cfg →
            ∀ (sent : List (Client.Rpc XR)) (f : Nat), 128 ≤ f →
            ∃ c : List Int, M.known c ∧ c <+: (Ppm.alphabet m0.symbols encode).past (decode ctx) ∧ (decode ctx = [] → c = [0]) ∧
              (∀ xs : List Int, (∀ x ∈ xs, Known m0.symbols encode decode x) → (xs.dropLast.flatMap encode).length < 128 →
                ∃ (q : ℝ) (M' : Memory) (c' : List Int), Drawn o K m0.chars (Ppm.alphabet m0.symbols encode) M c xs q M' c' ∧
                  uniforms {u | ∃ out w, Client.randGen (A := Arith.xr) (Client.Env.xr sort decode)
                    (service (env Arith.xr encode fuel orderN orderV) decode) f ⟨(h, fun i => .fin (u i)), sent⟩ ctx = .ok (⟨true, out⟩, w) ∧
                    (ctx ++ xs.flatMap encode) <+: out} = ENNReal.ofReal q ∧
                  ((xs.flatMap encode).length < 128 → ∃ p : ℝ,
                    M'.Prob (Ppm.effective o.alpha (1/2)) (Ppm.effective o.beta (3/4)) m0.chars 0 c' p ∧
                    uniforms {u | ∃ w, Client.randGen (A := Arith.xr) (Client.Env.xr sort decode)
                      (service (env Arith.xr encode fuel orderN orderV) decode) f ⟨(h, fun i => .fin (u i)), sent⟩ ctx =
                        .ok (⟨true, ctx ++ xs.flatMap encode⟩, w)} = ENNReal.ofReal (q * p))) ∧
              ∀ u : Nat → ℝ, ∃ (xs : List Int) (q : ℝ) (M' : Memory) (c' : List Int) (w : Client.World XR (Hub Arith.xr (Component Arith.xr) × (Nat → XR))),
                (∀ x ∈ xs, Known m0.symbols encode decode x) ∧
                Drawn o K m0.chars (Ppm.alphabet m0.symbols encode) M c xs q M' c' ∧
                Client.randGen (A := Arith.xr) (Client.Env.xr sort decode)
                  (service (env Arith.xr encode fuel orderN orderV) decode) f ⟨(h, fun i => .fin (u i)), sent⟩ ctx =
                  .ok (⟨true, ctx ++ xs.flatMap encode ++ if 128 ≤ (xs.flatMap encode).length then Client.lengthMark else []⟩, w) ∧
                AsksWell (env Arith.xr encode fuel orderN orderV) o (Ppm.alphabet m0.symbols encode) m0.symbols m0.chars M' w.srv.1 ∧
                TeachesWell (env Arith.xr encode fuel orderN orderV) o K (Ppm.alphabet m0.symbols encode) m0.symbols m0.chars M' w.srv.1 := by
  obtain ⟨bound, hb⟩ := served_live hs
  have hm : 0 < models.length := by
    cases models with
    | nil => cases hms
    | cons => simp
  obtain ⟨bound', hb'⟩ := serving hs hm
  refine ⟨max bound bound', fun fuel hfu orderN orderV hf cfg reqs h hcfg hmx hr => ?_⟩
  have hw := weights_single hcfg
  have hmax : cfgMax (A := Arith.xr) cfg < 2 ^ 31 := by unfold cfgMax; split <;> omega
  obtain ⟨h0, M, ctxs, k1, k2, k3, k4, k5⟩ := ready_reach hf hl (hb fuel (by omega)) (j := 0) (by rw [← hms, List.head?_eq_getElem?]) (by omega) hr
  have hv := hb' fuel (by omega) orderN orderV hf cfg hcfg
  have hd := Learner.dense hl
  have hE : Client.Rearranges (Client.Env.xr sort decode) := hsort
  have hsy : ∀ e ∈ m0.symbols, 0 < e.1 → e.2 ≠ [] := fun e he hp => by
    obtain ⟨_, _, _, h3, _⟩ := hc.char e he hp; exact h3
  refine ⟨h0, M, k1, k2, fun ctx hpos hroom sent f hfuel => ?_⟩
  have hsit : Sitting encode fuel orderN orderV K m0 models cfg M ctxs h := ⟨⟨reqs, hr⟩, k3, by rw [k5]; omega, by rw [k4]; exact hmax⟩
  obtain ⟨h1, s, c, sent1, scores, a1, a2, a3, hst, hgen⟩ := hsit.start (sort := sort) (n := 128) hf hl hd hdec hpos (fun h' hh => by
    obtain ⟨more, f1, f2⟩ := hh
    refine (C77_room hf (reach_append hr f1) ?_).1
    rw [List.map_append, List.sum_append]
    omega) sent
  refine ⟨c, a1, a2, a3, fun xs hx hshort => ?_, fun u => ?_⟩
  · have hlenb : ∀ (ys zs : List Int) (z : Int), xs = ys ++ z :: zs → (ys.flatMap encode).length < 128 := by
      rintro ys zs z rfl
      rw [List.dropLast_append_cons] at hshort
      simp only [List.flatMap_append, List.length_append] at hshort
      omega
    have hbyte : ∀ ys : List Int, (∀ y ∈ ys, Known m0.symbols encode decode y) → ys.length ≤ (ys.flatMap encode).length := by
      intro ys
      induction ys with
      | nil => intro _; simp
      | cons y ys ih =>
        intro hy
        obtain ⟨e, e1, e2, e3⟩ := Known.mem hd (hy y (by simp))
        have : 0 < (encode y).length := by rw [← e3]; exact List.length_pos_iff.2 (hsy e e1 e2)
        have := ih fun z hz => hy z (by simp [hz])
        simp only [List.flatMap_cons, List.length_append, List.length_cons]
        omega
    have hxl : xs.length ≤ 128 := by
      have := hbyte xs.dropLast (fun y hy => hx y (List.mem_of_mem_dropLast hy))
      rw [List.length_dropLast] at this
      omega
    obtain ⟨B, q, M', c', h', sent', s', scores', d1, d0, d2, _, d3, d4, d5⟩ := hst.begins (maxLen := 128 + ctx.length) hf hl hd hv hE hc xs hx sent1 (text := ctx) hxl
      (fun ys zs z e => by have := hlenb ys zs z e; omega)
    have hok : ∀ u : Nat → ℝ, ∃ g w, Client.randGen (A := Arith.xr) (Client.Env.xr sort decode)
        (service (env Arith.xr encode fuel orderN orderV) decode) f ⟨(h, fun i => .fin (u i)), sent⟩ ctx = .ok (⟨true, g⟩, w) ∧ True := by
      intro u
      obtain ⟨ys, _, _, _, _, w, _, _, _, l4⟩ := hst.outcome (maxLen := 128 + ctx.length) hf hl hd hv hE hc f sent1 (text := ctx) 128 u (by omega) (by omega) hfuel
      rw [hgen, l4]
      unfold Client.randFinish
      split <;> exact ⟨_, _, rfl, trivial⟩
    refine ⟨q, M', c', d1, ?_, fun hlt => ?_⟩
    · rw [← d4, ← uniforms_box B d3]
      congr 1
      ext u
      simp only [Set.mem_ofPred_eq]
      constructor
      · rintro ⟨out, w, e, hpre⟩
        by_contra hn
        rw [hgen] at e
        exact (d5 u).2 hn _ _ _ e hpre
      · intro hu
        obtain ⟨out, w, e, _⟩ := hok u
        refine ⟨out, w, e, ?_⟩
        rw [hgen, show f = f - xs.length + xs.length by omega, (d5 u).1 hu] at e
        split at e
        · exact randLoop_prefix _ e
        · simp only [Except.ok.injEq, Prod.mk.injEq] at e
          rw [show out = (Client.randFinish (ctx ++ xs.flatMap encode) (128 + ctx.length)).text by rw [e.1]]
          unfold Client.randFinish
          split <;> simp
    · obtain ⟨ctxs', r, _, _, ht, hsc⟩ := d2.sits
      obtain ⟨hall, hone⟩ := ht.draw hd hsy hE
      obtain ⟨p, p0, p1, p2, p3⟩ := hone 0 [] (by omega) rfl
      rw [← hsc] at hall p2 p3
      refine ⟨p, p1, ?_⟩
      have hbox := uniforms_box (fun i => if i < xs.length then B i else {t : ℝ | picked scores' (.fin t) = some []}) (fun i => by
        split
        · exact d3 i
        · exact p2) (xs.length + 1)
      rw [Finset.prod_range_succ, if_neg (by omega), p3, Finset.prod_congr rfl (g := fun i => uniform (B i)) (fun i hi => by
        rw [if_pos (Finset.mem_range.1 hi)]), d4, ← ENNReal.ofReal_mul d0.le] at hbox
      rw [← hbox]
      congr 1
      ext u
      simp only [Set.mem_ofPred_eq]
      have hxf : xs.length < f := by have := hbyte xs hx; omega
      have hlt' : (ctx ++ xs.flatMap encode).length < 128 + ctx.length := by rw [List.length_append]; omega
      have hfin : Client.randFinish (ctx ++ xs.flatMap encode) (128 + ctx.length) = ⟨true, ctx ++ xs.flatMap encode⟩ := by
        unfold Client.randFinish
        rw [if_neg (by omega)]
      have hlast : (∀ i < xs.length, u i ∈ B i) → Client.randGen (A := Arith.xr) (Client.Env.xr sort decode)
          (service (env Arith.xr encode fuel orderN orderV) decode) f ⟨(h, fun i => .fin (u i)), sent⟩ ctx =
          Client.randLoop (A := Arith.xr) (Client.Env.xr sort decode) (service (env Arith.xr encode fuel orderN orderV) decode) (128 + ctx.length)
            (f - xs.length - 1 + 1) ⟨(h', fun i => .fin (u (i + xs.length))), sent'⟩ s' scores' (ctx ++ xs.flatMap encode) := by
        intro hu
        have := (d5 u).1 hu (f - xs.length - 1 + 1)
        rw [if_pos (.inr hlt'), show f - xs.length - 1 + 1 + xs.length = f by omega] at this
        rw [hgen, this]
      constructor
      · rintro ⟨w, e⟩
        have hu : ∀ i < xs.length, u i ∈ B i := by
          by_contra hn
          rw [hgen] at e
          exact (d5 u).2 hn _ _ _ e (List.prefix_refl _)
        intro i hi
        by_cases hix : i < xs.length
        · rw [if_pos hix]; exact hu i hix
        · rw [if_neg hix]
          have hie : i = xs.length := by omega
          subst hie
          obtain ⟨y, sym, _, _, hpick⟩ := hall (u xs.length)
          simp only [Set.mem_ofPred_eq, hpick, Option.some.injEq]
          by_contra hne
          rw [hlast hu, randLoop_step] at e
          simp only [Nat.zero_add, hpick, if_neg hne] at e
          have hpre : ctx ++ xs.flatMap encode ++ sym <+: ctx ++ xs.flatMap encode := by
            cases hr : Client.updateCountGetDestStateScore (A := Arith.xr) (Client.Env.xr sort decode)
                (service (env Arith.xr encode fuel orderN orderV) decode) ⟨(h', later fun i => .fin (u (i + xs.length))), sent'⟩ sym s' 1 with
            | mk a w1 =>
              rw [hr] at e
              cases a with
              | none =>
                simp only [Except.ok.injEq, Prod.mk.injEq, Client.Gen.mk.injEq, Bool.false_eq_true, false_and] at e
              | some z =>
                simp only at e
                split at e
                · exact randLoop_prefix _ e
                · simp only [Except.ok.injEq, Prod.mk.injEq] at e
                  have hh : ctx ++ xs.flatMap encode ++ sym <+: (Client.randFinish (ctx ++ xs.flatMap encode ++ sym) (128 + ctx.length)).text := by
                    unfold Client.randFinish
                    split <;> simp
                  rw [e.1] at hh
                  exact hh
          have := hpre.length_le
          have h0 : 0 < sym.length := List.length_pos_iff.2 hne
          rw [List.length_append] at this
          omega
      · intro hu
        have hbefore : ∀ i < xs.length, u i ∈ B i := fun i hi => by
          have := hu i (by omega)
          rwa [if_pos hi] at this
        have hend := hu xs.length (by omega)
        rw [if_neg (by omega)] at hend
        simp only [Set.mem_ofPred_eq] at hend
        rw [hlast hbefore, randLoop_step]
        simp only [Nat.zero_add, hend, if_true, hfin]
        exact ⟨_, rfl⟩
  · obtain ⟨xs, q, M', c', ctxs', w, l1, l2, l3, l4⟩ := hst.outcome (maxLen := 128 + ctx.length) hf hl hd hv hE hc f sent1 (text := ctx) 128 u (by omega) (by omega) hfuel
    refine ⟨xs, q, M', c', w, l1, l2, ?_, l3.ready.asks hf hl l3.weights, l3.ready.teaches hf hl l3.weights l3.max⟩
    rw [hgen, l4]
    unfold Client.randFinish
    have : 128 + ctx.length ≤ (ctx ++ xs.flatMap encode).length ↔ 128 ≤ (xs.flatMap encode).length := by
      rw [List.length_append]; omega
    simp only [this, Client.limitMessage_eq]
    split <;> simp

end Mozolm.System
