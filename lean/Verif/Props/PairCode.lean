import Verif.Props.Code
import Verif.Props.SystemPairs
import Verif.System.PairCodeSpec

/-!
# C96: the bits per character that the client reports, with a bigram model
-/

namespace Mozolm.System
open Mozolm.Hub Mozolm.Server Mozolm.Client
variable {encode : Int → Str} {fuel : Nat} {V : List Int} {T : Pairs} {m0 : Bigram.Model}
  {orderN : List (Int × Nat) → List (Int × Nat)} {orderV : List (Str × XR) → List (Str × XR)}
  {models : List (Component Arith.xr)} {cfg : HubConfig XR} {h : Hub Arith.xr (Component Arith.xr)}
  {sort : List (XR × Str) → List (XR × Str)} {decode : Str → List Int}

/-! ## The listing -/

/-- Usable: one probability for each symbol, and at least one. -/
theorem pairs_top (hne : V ≠ []) (c : Int) :
    Scores.getTopHypotheses sort (T.reply Arith.xr encode V c) (-1) =
      .ok (sort ((T.reply Arith.xr encode V c).probs.zip (T.reply Arith.xr encode V c).symbols)) := by
  have h1 : (T.reply Arith.xr encode V c).probs.length = V.length := by simp [Pairs.reply]
  have h2 : (T.reply Arith.xr encode V c).symbols.length = V.length := by simp [Pairs.reply]
  have : 0 < V.length := List.length_pos_iff.2 hne
  simp only [Scores.getTopHypotheses]
  rw [if_neg (by omega), if_neg (by omega), if_neg (by omega), if_neg (by omega)]

theorem pairs_total_pos (hne : V ≠ []) (hpos : ∀ a ∈ V, ∀ b ∈ V, 1 ≤ T a b) (c : Int) : 0 < T.total V (under V c) :=
  Bigram.row_sum_pos (by simpa using hne) fun x hx => by
    obtain ⟨b, hb, rfl⟩ := List.mem_map.1 hx
    exact hpos _ (under_mem hne c) b hb

/-- What the client finds in it. -/
theorem pairs_bits (hne : V ≠ []) (hnd : V.Nodup) (hinj : ∀ a ∈ V, ∀ b ∈ V, encode a = encode b → a = b)
    (hpos : ∀ a ∈ V, ∀ b ∈ V, 1 ≤ T a b) (hE : Client.Rearranges (Client.Env.xr sort decode)) (a : Int) :
    (∀ c ∈ V,
      (findStringIndex (A := Arith.xr) (sort ((T.reply Arith.xr encode V a).probs.zip (T.reply Arith.xr encode V a).symbols)) (encode c)).isNone = false ∧
      calculateBits (Env.xr sort decode)
        (findStringIndex (A := Arith.xr) (sort ((T.reply Arith.xr encode V a).probs.zip (T.reply Arith.xr encode V a).symbols)) (encode c))
        (sort ((T.reply Arith.xr encode V a).probs.zip (T.reply Arith.xr encode V a).symbols)) = .ok (.fin (charBits (T.share V a c)))) ∧
    ∀ sym, (∀ c ∈ V, encode c ≠ sym) →
      (findStringIndex (A := Arith.xr) (sort ((T.reply Arith.xr encode V a).probs.zip (T.reply Arith.xr encode V a).symbols)) sym).isNone = true ∧
      calculateBits (Env.xr sort decode)
        (findStringIndex (A := Arith.xr) (sort ((T.reply Arith.xr encode V a).probs.zip (T.reply Arith.xr encode V a).symbols)) sym)
        (sort ((T.reply Arith.xr encode V a).probs.zip (T.reply Arith.xr encode V a).symbols)) = .ok (.fin (charBits 0)) := by
  have hperm : (sort ((T.reply Arith.xr encode V a).probs.zip (T.reply Arith.xr encode V a).symbols)).Perm
      ((T.reply Arith.xr encode V a).probs.zip (T.reply Arith.xr encode V a).symbols) := hE _
  generalize sort ((T.reply Arith.xr encode V a).probs.zip (T.reply Arith.xr encode V a).symbols) = scores at hperm ⊢
  have htot : (0 : ℝ) < (T.total V (under V a) : ℝ) := by exact_mod_cast pairs_total_pos hne hpos a
  have hsym : (T.reply Arith.xr encode V a).symbols = V.map encode := rfl
  have hpr : (T.reply Arith.xr encode V a).probs = (List.range V.length).map fun y => XR.fin (T.share V a (V.getD y 0)) := by
    refine List.ext_getElem? fun i => ?_
    simp only [Pairs.reply, List.getElem?_map]
    cases hi : V[i]? with
    | none =>
      have := List.getElem?_eq_none_iff.1 hi
      rw [List.getElem?_eq_none (by simpa using this)]; rfl
    | some c =>
      have := lt_of_getElem?_eq_some hi
      rw [List.getElem?_range this]
      simp only [Option.map_some, List.getD_eq_getElem?_getD, hi, Option.getD_some]
      exact congrArg some (Bigram.div_fin htot.ne')
  rw [hpr, hsym] at hperm
  have hnd' : (V.map encode).Nodup := hnd.map_on fun a ha b hb e => hinj a ha b hb e
  refine ⟨fun c hc => ?_, fun sym hs => bits_none fun x hx => ?_⟩
  · obtain ⟨i, hi⟩ := List.mem_iff_getElem?.1 hc
    have hlt := lt_of_getElem?_eq_some hi
    have hget : V.getD i 0 = c := by rw [List.getD_eq_getElem?_getD, hi]; rfl
    have h0 : 0 ≤ T.share V a (V.getD i 0) := by
      rw [hget]
      have : (1 : ℝ) ≤ (T (under V a) c : ℝ) := by exact_mod_cast hpos _ (under_mem hne a) c hc
      unfold Pairs.share
      positivity
    have := bits_at (sort := sort) (decode := decode) (p := fun y => T.share V a (V.getD y 0)) hnd' (n := V.length) (by simp) hperm hlt
      (sym := encode c) (by rw [List.getElem?_map, hi]; rfl) h0
    rw [hget] at this
    exact this
  · rintro e
    have := hperm.mem_iff.1 hx
    obtain ⟨c, hc, hce⟩ := List.mem_map.1 (List.of_mem_zip (a := x.1) (b := x.2) this).2
    exact hs c hc (hce.trans e)

/-! ## The table -/

theorem pairs_add_nil (a n : Int) : T.add V a [] n = T := by
  funext x y; simp [Pairs.add, pairsOf]

theorem pairs_add_unknown {c : Int} (hc : c ∉ V) (a n : Int) : T.add V a [c] n = T := by
  funext x y; simp [Pairs.add, pairsOf, hc]

/-- Counting character by character. -/
theorem pairs_add_cons (a c : Int) (text : List Int) (n : Int) : T.add V a (c :: text) n = (T.add V a [c] n).add V c text n := by
  funext x y
  by_cases hc : c ∈ V
  · simp only [Pairs.add, pairsOf, hc, if_true, under]
    split
    · rw [List.count_cons, List.count_cons, List.count_nil, Nat.cast_add, mul_add]
      simp only [Nat.zero_add]
      omega
    · omega
  · simp only [Pairs.add, pairsOf, hc, if_false, under]
    split
    · simp
    · omega

theorem PairsCoded.table {a : Int} {text : List Int} {k : Nat} {b : ℝ} {T' : Pairs} (h : PairsCoded encode V T a text k b T') :
    T' = T.add V a text 1 := by
  induction h with
  | stop _ _ => rw [pairs_add_nil]
  | cut _ => rw [pairs_add_nil]
  | known _ _ ih => rw [ih, ← pairs_add_cons]
  | unknown hc _ ih => rw [ih, pairs_add_cons, pairs_add_unknown hc]

theorem PairsCoded.exists (text : List Int) : ∀ (T : Pairs) (a : Int), ∃ k b T', PairsCoded encode V T a text k b T' := by
  induction text with
  | nil =>
    intro T a
    by_cases h : ∃ e ∈ V, encode e = []
    · obtain ⟨e, h1, h2⟩ := h
      exact ⟨_, _, _, .stop h1 h2⟩
    · exact ⟨_, _, _, .cut fun e he hh => h ⟨e, he, hh⟩⟩
  | cons c text ih =>
    intro T a
    by_cases hc : c ∈ V
    · obtain ⟨k, b, T', h⟩ := ih (T.add V a [c] 1) c
      exact ⟨_, _, _, .known hc h⟩
    · obtain ⟨k, b, T', h⟩ := ih T c
      exact ⟨_, _, _, .unknown hc h⟩

theorem PairsCodedFile.exists (file : List (List Int)) : ∀ T : Pairs, ∃ k b T', PairsCodedFile encode V T file k b T' := by
  induction file with
  | nil => exact fun T => ⟨_, _, _, .nil⟩
  | cons line lines ih =>
    intro T
    obtain ⟨k, b, T1, h⟩ := PairsCoded.exists (encode := encode) (V := V) line T 0
    obtain ⟨k', b', T', h'⟩ := ih T1
    exact ⟨_, _, _, .cons h h'⟩

/-- **C96** What is coded is counted: each line once, from the beginning of a text. -/
theorem C96_learnt {file : List (List Int)} {k : Nat} {b : ℝ} {T' : Pairs} (h : PairsCodedFile encode V T file k b T') :
    T' = file.foldl (fun T line => T.add V 0 line 1) T := by
  induction h with
  | nil => rfl
  | cons h1 _ ih => rw [ih, List.foldl_cons, h1.table]

theorem PairsCoded.unique (hinj : ∀ a ∈ V, ∀ b ∈ V, encode a = encode b → a = b) {a : Int} {text : List Int} {k k' : Nat} {b b' : ℝ} {T' T'' : Pairs}
    (h : PairsCoded encode V T a text k b T') (h' : PairsCoded encode V T a text k' b' T'') : k = k' ∧ b = b' ∧ T' = T'' := by
  induction h generalizing k' b' T'' with
  | stop h1 h2 =>
    cases h' with
    | stop g1 g2 => rw [hinj _ h1 _ g1 (h2.trans g2.symm)]; exact ⟨rfl, rfl, rfl⟩
    | cut g => exact absurd h2 (g _ h1)
  | cut h =>
    cases h' with
    | stop g1 g2 => exact absurd g2 (h _ g1)
    | cut g => exact ⟨rfl, rfl, rfl⟩
  | known hc _ ih =>
    cases h' with
    | known _ g => obtain ⟨e1, e2, e3⟩ := ih g; exact ⟨e1, by rw [e2], e3⟩
    | unknown hn _ => exact absurd hc hn
  | unknown hc _ ih =>
    cases h' with
    | known hn _ => exact absurd hn hc
    | unknown _ g => obtain ⟨e1, e2, e3⟩ := ih g; exact ⟨by rw [e1], by rw [e2], e3⟩

/-- **C96** The figures are determined by the table and the file. -/
theorem C96_unique (hinj : ∀ a ∈ V, ∀ b ∈ V, encode a = encode b → a = b) {file : List (List Int)} {k k' : Nat} {b b' : ℝ} {T' T'' : Pairs}
    (h : PairsCodedFile encode V T file k b T') (h' : PairsCodedFile encode V T file k' b' T'') : k = k' ∧ b = b' ∧ T' = T'' := by
  induction h generalizing k' b' T'' with
  | nil => cases h'; exact ⟨rfl, rfl, rfl⟩
  | cons h1 _ ih =>
    cases h' with
    | cons g1 g2 =>
      obtain ⟨e1, e2, rfl⟩ := h1.unique hinj g1
      obtain ⟨e4, e5, e6⟩ := ih g2
      exact ⟨by omega, by rw [e2, e5], e6⟩

theorem PairsCoded.ends (hno : ∀ e ∈ V, encode e ≠ []) {a : Int} {text : List Int} {k : Nat} {b : ℝ} {T' : Pairs} (h : PairsCoded encode V T a text k b T') :
    k = (text.filter fun c => decide (c ∉ V)).length + 1 := by
  induction h with
  | stop h1 h2 => exact absurd h2 (hno _ h1)
  | cut _ => rfl
  | known hc _ ih => rw [ih, List.filter_cons_of_neg (by simpa using hc)]
  | unknown hc _ ih => rw [ih, List.filter_cons_of_pos (by simpa using hc), List.length_cons]

/-- **C96** If no character of the vocabulary is written as the empty string, the end of each line is reported as unknown. -/
theorem C96_ends (hno : ∀ e ∈ V, encode e ≠ []) {file : List (List Int)} {k : Nat} {b : ℝ} {T' : Pairs} (h : PairsCodedFile encode V T file k b T') :
    k = (file.flatten.filter fun c => decide (c ∉ V)).length + file.length := by
  induction h with
  | nil => rfl
  | cons h1 _ ih => rw [ih, h1.ends hno, List.flatten_cons, List.filter_append, List.length_append, List.length_cons]; omega

theorem PairsCoded.grows {a : Int} {text : List Int} {k : Nat} {b : ℝ} {T' : Pairs} (h : PairsCoded encode V T a text k b T') (x y : Int) : T x y ≤ T' x y := by
  rw [h.table]; exact Pairs.le_add _ _ _ _ _ _ _

theorem PairsCodedFile.grows {file : List (List Int)} {k : Nat} {b : ℝ} {T' : Pairs} (h : PairsCodedFile encode V T file k b T') (x y : Int) : T x y ≤ T' x y := by
  induction h with
  | nil => exact le_refl _
  | cons h1 _ ih => exact (h1.grows x y).trans ih

theorem within_of_le {T' : Pairs} (h : ∀ x y, T x y ≤ T' x y) (hw : T'.Within V) : T.Within V := fun a ha b hb => (h a b).trans (hw a ha b hb)

/-! ## One step of the client -/

/-- The server the client talks to. -/
structure PairSitting (encode : Int → Str) (fuel : Nat) (orderN : List (Int × Nat) → List (Int × Nat)) (orderV : List (Str × XR) → List (Str × XR))
    (models : List (Component Arith.xr)) (cfg : HubConfig XR) (V : List Int) (T : Pairs) (h : Hub Arith.xr (Component Arith.xr)) : Prop where
  reach : ∃ reqs, Server.Reach (env Arith.xr encode fuel orderN orderV) models cfg reqs h
  tallied : Tallied encode fuel orderN orderV 0 V T h
  weights : h.weights.length < 2
  max : h.max < 2 ^ 31

theorem PairSitting.id32 (hs : PairSitting encode fuel orderN orderV models cfg V T h) {s : Nat} (hlt : s < h.states.length) :
    toInt32 (s : Int) = s ∧ (s : Int) < 2 ^ 31 := by
  have hle := hs.tallied.own.inv.le
  have := hs.max
  exact ⟨toInt32_of_range (by omega) (by omega), by omega⟩

theorem PairSitting.further {n : Nat} {h' : Hub Arith.xr (Component Arith.xr)} {T' : Pairs} (hf : (env Arith.xr encode fuel orderN orderV).Fair)
    (hs : PairSitting encode fuel orderN orderV models cfg V T h) (hr : Tallied encode fuel orderN orderV 0 V T' h')
    (hfu : Further (env Arith.xr encode fuel orderN orderV) n h h') : PairSitting encode fuel orderN orderV models cfg V T' h' := by
  have g := hfu.good hf hs.tallied.own.inv
  obtain ⟨more, e, _⟩ := hfu
  obtain ⟨reqs, r⟩ := hs.reach
  exact ⟨⟨_, reach_append r e⟩, hr, by rw [g.const.weights]; exact hs.weights, by rw [g.const.max]; exact hs.max⟩

/-- `UpdateCountGetDestStateScore` for at most one symbol. -/
theorem PairSitting.dest (hf : (env Arith.xr encode fuel orderN orderV).Fair) (hne : V ≠ [])
    (hv : Serving encode fuel orderN orderV models cfg) {w : Client.World XR (Hub Arith.xr (Component Arith.xr) × (Nat → XR))}
    (hs : PairSitting encode fuel orderN orderV models cfg V T w.srv.1) {a : Int} {s : Nat} (hlt : s < w.srv.1.states.length)
    (ha : stateSym w.srv.1 (s : Int) = a)
    {sym : Str} {cs : List Int} (hcs : decode sym = cs) (hpos : ∀ x ∈ cs, 0 ≤ x) (hone : cs.length ≤ 1) {n : Int}
    {u : Option (Int × List (XR × Str))} {w' : Client.World XR (Hub Arith.xr (Component Arith.xr) × (Nat → XR))}
    (he : Client.updateCountGetDestStateScore (Client.Env.xr sort decode) (service (env Arith.xr encode fuel orderN orderV) decode) w sym s n = (u, w'))
    (hg : w'.srv.1.selfRecycled = false) (hT : (T.add V a cs n).Within V) :
    ∃ k : Nat, u = some ((k : Int), sort (((T.add V a cs n).reply Arith.xr encode V (cs.getLast?.getD a)).probs.zip
        ((T.add V a cs n).reply Arith.xr encode V (cs.getLast?.getD a)).symbols)) ∧
      PairSitting encode fuel orderN orderV models cfg V (T.add V a cs n) w'.srv.1 ∧
      k < w'.srv.1.states.length ∧ stateSym w'.srv.1 (k : Int) = cs.getLast?.getD a ∧ w'.srv.2 = w.srv.2 := by
  obtain ⟨i1, i2⟩ := hs.id32 hlt
  obtain ⟨reqs, hreach⟩ := hs.reach
  obtain ⟨rep, h1, e1⟩ := hv.update reqs _ hreach s (by omega) i2 (by omega) cs hpos n
  simp only [Client.updateCountGetDestStateScore, Client.rpcUpdate, Client.rpcNextState, service, i1] at he
  rw [show (Client.Env.xr sort decode).decode = decode from rfl, hcs, e1] at he
  have hf1 : Further (env Arith.xr encode fuel orderN orderV) (3 * cs.length) w.srv.1 h1 := by
    have := further_update (env := env Arith.xr encode fuel orderN orderV) (h := w.srv.1) s cs n
    rw [e1] at this
    cases rep <;> exact this
  have g1 := hf1.good hf hs.tallied.own.inv
  have hg1 : h1.selfRecycled = false := by
    cases rep with
    | invalidArgument => simp only [replied] at he; cases he; exact hg
    | ok r =>
      simp only [replied] at he
      have hnx := (further_next (env := env Arith.xr encode fuel orderN orderV) (h := h1) cs s).good hf g1.inv
      cases ht : Scores.getTopHypotheses (Client.Env.xr sort decode).sort r (-1) with
      | ok hy =>
        rw [ht] at he
        simp only at he
        refine ghost_false hnx ?_
        change _ = (u, w') at he
        cases hr : (replied h1 (Server.getNextState (env Arith.xr encode fuel orderN orderV) h1 cs s)).1 <;>
          (simp only [replied] at hr; rw [hr] at he; cases he; exact hg)
      | _ => rw [ht] at he; cases he; exact hg
  have hlast : lastAt w.srv.1 (s : Int) cs = cs.getLast?.getD a := by
    unfold lastAt
    cases cs.getLast? with
    | some c => rfl
    | none => simp only [i1, if_neg (show ¬ ((s : Int) < 0) by omega), ha, Option.getD_none]
  obtain ⟨hr', hrep, k, hp, hk, hsym⟩ := hs.tallied.taught hf hs.weights (x := s) (n := n) (by omega) (by omega) hpos (.inr hone) e1 hg1
    (by rw [i1, ha]; exact hT)
  rw [i1, ha] at hr' hrep
  rw [hlast] at hrep hsym
  rw [i1, Int.toNat_natCast] at hp
  subst hrep
  have hnext : Server.getNextState (env Arith.xr encode fuel orderN orderV) h1 cs s = .ok (.ok (k : Int), h1) := by
    simp only [Server.getNextState, contextState, i1, if_neg (show ¬ ((s : Int) < 0) by omega), contextLoop_path hp, ok_bind]
  simp only [replied, hnext, pairs_top hne] at he
  cases he
  exact ⟨k, rfl, hs.further hf hr' hf1, hk, hsym, rfl⟩

/-- The scores at the beginning. -/
theorem PairSitting.scores (hf : (env Arith.xr encode fuel orderN orderV).Fair) (hne : V ≠ [])
    (hv : Serving encode fuel orderN orderV models cfg)
    (h0 : decode [] = []) {w : Client.World XR (Hub Arith.xr (Component Arith.xr) × (Nat → XR))}
    (hs : PairSitting encode fuel orderN orderV models cfg V T w.srv.1) (hT : T.Within V) {s : Nat} (hlt : s < w.srv.1.states.length)
    {u : Option (List (XR × Str))} {w' : Client.World XR (Hub Arith.xr (Component Arith.xr) × (Nat → XR))}
    (he : Client.getLMScores (Client.Env.xr sort decode) (service (env Arith.xr encode fuel orderN orderV) decode) w [] s = (u, w')) :
    u = some (sort ((T.reply Arith.xr encode V (stateSym w.srv.1 s)).probs.zip (T.reply Arith.xr encode V (stateSym w.srv.1 s)).symbols)) ∧
      PairSitting encode fuel orderN orderV models cfg V T w'.srv.1 ∧ s < w'.srv.1.states.length ∧
      stateSym w'.srv.1 s = stateSym w.srv.1 s ∧ w'.srv.2 = w.srv.2 ∧
      (w'.srv.1.selfRecycled = false ↔ w.srv.1.selfRecycled = false) := by
  obtain ⟨i1, i2⟩ := hs.id32 hlt
  obtain ⟨reqs, hreach⟩ := hs.reach
  obtain ⟨rep, h', e2⟩ := hv.ask reqs _ hreach [] s
  have hrep := hs.tallied.asks hf hT hs.weights [] s (by simp) rep h' e2
  rw [if_neg (by rw [i1]; omega)] at hrep
  have hlast : lastAt w.srv.1 (s : Int) [] = stateSym w.srv.1 s := by
    simp only [lastAt, List.getLast?_nil, i1, if_neg (show ¬ ((s : Int) < 0) by omega)]
  rw [hlast] at hrep
  subst hrep
  have hfu := further_scores (env := env Arith.xr encode fuel orderN orderV) (w := w) (decode := decode) (E := Client.Env.xr sort decode) [] s
  rw [he] at hfu
  obtain ⟨T', k1, k2⟩ := hs.tallied.serve (r := .getLMScores [] s) (h' := h') hf (by simp only [Server.serve, e2, ok_bind])
  cases k1
  have hst : ∃ ms, h' = { w.srv.1 with models := ms } := by
    simp only [Server.getLMScores, contextState, i1, if_neg (show ¬ ((s : Int) < 0) by omega), contextLoop, ok_bind] at e2
    obtain ⟨⟨y, h3⟩, e3, e4⟩ := bind_ok.1 e2
    obtain ⟨ms, _, hms⟩ := extract_states e3
    refine ⟨ms, ?_⟩
    cases y <;> (cases e4 <;> exact hms)
  obtain ⟨m, _, hm⟩ := hs.tallied.holds hT
  have hvne : 0 < T.total V (under V (stateSym w.srv.1 s)) := pairs_total_pos hne (fun a ha b hb => hm.pos ha hb) _
  have hnorm : (T.reply Arith.xr encode V (stateSym w.srv.1 s)).norm = .fin (T.total V (under V (stateSym w.srv.1 s)) : ℝ) := rfl
  have hq : (0 : ℝ) < (T.total V (under V (stateSym w.srv.1 s)) : ℝ) := by exact_mod_cast hvne
  simp only [Client.getLMScores, Client.getLMScore, service, i1, h0, e2, replied, pairs_top hne, hnorm] at he
  rw [if_neg (by simp [XR.le, hvne])] at he
  cases he
  obtain ⟨ms, hms⟩ := hst
  refine ⟨rfl, hs.further hf k2 hfu, ?_, ?_, rfl, ?_⟩ <;> (try simp only) <;> rw [hms]
  · exact hlt
  · rfl

/-! ## A line, and a file -/

/-- The vocabulary and the characters of the text are told apart by how they are written. -/
structure Spelt (encode : Int → Str) (decode : Str → List Int) (V : List Int) (text : List Int) : Prop where
  vocab : ∀ a ∈ V, ∀ b ∈ V, encode a = encode b → a = b
  chars : ∀ c ∈ text, 0 ≤ c ∧ decode (encode c) = [c]
  apart : ∀ a ∈ V, ∀ c ∈ text, encode a = encode c → a = c

theorem PairSitting.line (hf : (env Arith.xr encode fuel orderN orderV).Fair) (hne : V ≠ []) (hnd : V.Nodup)
    (hE : Client.Rearranges (Client.Env.xr sort decode)) (h0 : decode [] = [])
    (hv : Serving encode fuel orderN orderV models cfg) (text : List Int) (ht : Spelt encode decode V text) :
    ∀ {T T' : Pairs} {w w' : Client.World XR (Hub Arith.xr (Component Arith.xr) × (Nat → XR))} {a : Int} {s : Nat}
      {n k k' : Nat} {b b' : ℝ} {out : Option (Client.Totals XR)},
    PairSitting encode fuel orderN orderV models cfg V T w.srv.1 →
    s < w.srv.1.states.length → stateSym w.srv.1 (s : Int) = a → PairsCoded encode V T a text k' b' T' → T'.Within V →
    Client.bitsLine (A := Arith.xr) (Client.Env.xr sort decode) (service (env Arith.xr encode fuel orderN orderV) decode) w ⟨n, k, .fin b⟩ s
      (sort ((T.reply Arith.xr encode V a).probs.zip (T.reply Arith.xr encode V a).symbols)) (text.map encode ++ [[]]) = .ok (out, w') →
    w'.srv.1.selfRecycled = false →
    out = some ⟨n + (text.length + 1), k + k', .fin (b + b')⟩ ∧ PairSitting encode fuel orderN orderV models cfg V T' w'.srv.1 := by
  induction text with
  | nil =>
    intro T T' w w' a s n k k' b b' out hs hlt ha hcode hT he hg
    have hTT : T = T' := by cases hcode <;> rfl
    subst hTT
    obtain ⟨m, _, hm⟩ := hs.tallied.holds hT
    obtain ⟨q1, q2⟩ := pairs_bits (decode := decode) hne hnd ht.vocab (fun x hx y hy => hm.pos hx hy) hE a
    rw [List.map_nil, List.nil_append, Client.bitsLine] at he
    obtain ⟨b1, e1, he⟩ := bind_ok.1 he
    simp only at he
    generalize hu : Client.updateCountGetDestStateScore (A := Arith.xr) (Client.Env.xr sort decode)
      (service (env Arith.xr encode fuel orderN orderV) decode) w [] s 1 = u at he
    obtain ⟨u, w1⟩ := u
    have hw : w1 = w' := by
      cases u with
      | none => cases he; rfl
      | some x => cases he; rfl
    subst hw
    obtain ⟨t, rfl, hs', _⟩ := hs.dest hf hne hv hlt ha h0 (by simp) (by simp) hu hg (by rw [pairs_add_nil]; exact hT)
    rw [pairs_add_nil] at hs'
    cases hcode with
    | stop c1 c2 =>
      obtain ⟨p1, p2⟩ := q1 _ c1
      rw [c2] at p1 p2
      rw [p2] at e1
      cases e1
      rw [p1] at he
      simp only [Bool.false_eq_true, if_false] at he
      cases he
      exact ⟨rfl, hs'⟩
    | cut c1 =>
      obtain ⟨p1, p2⟩ := q2 [] c1
      rw [p2] at e1
      cases e1
      rw [p1] at he
      simp only [if_true] at he
      cases he
      exact ⟨rfl, hs'⟩
  | cons c text ih =>
    intro T T' w w' a s n k k' b b' out hs hlt ha hcode hT he hg
    obtain ⟨t1, t3⟩ := ht.chars c (by simp)
    have ht' : Spelt encode decode V text := ⟨ht.vocab, fun d hd => ht.chars d (by simp [hd]), fun x hx d hd => ht.apart x hx d (by simp [hd])⟩
    have hT0 : T.Within V := within_of_le hcode.grows hT
    have hT1 : (T.add V a [c] 1).Within V := by
      refine within_of_le (fun x y => ?_) hT
      rw [hcode.table, pairs_add_cons a c text]
      exact Pairs.le_add _ _ _ _ _ _ _
    obtain ⟨m, _, hm⟩ := hs.tallied.holds hT0
    obtain ⟨q1, q2⟩ := pairs_bits (decode := decode) hne hnd ht.vocab (fun x hx y hy => hm.pos hx hy) hE a
    rw [List.map_cons, List.cons_append, Client.bitsLine] at he
    obtain ⟨b1, e1, he⟩ := bind_ok.1 he
    simp only at he
    generalize hu : Client.updateCountGetDestStateScore (A := Arith.xr) (Client.Env.xr sort decode)
      (service (env Arith.xr encode fuel orderN orderV) decode) w (encode c) s 1 = u at he
    obtain ⟨u, w1⟩ := u
    have hg1 : w1.srv.1.selfRecycled = false := by
      cases u with
      | none => cases he; exact hg
      | some x =>
        have hfu := further_line (A := Arith.xr) (E := Client.Env.xr sort decode) (decode := decode) rfl _ he
        have hfd := further_dest (A := Arith.xr) (E := Client.Env.xr sort decode) (w := w) (env := env Arith.xr encode fuel orderN orderV) (decode := decode) rfl (encode c) s 1
        rw [hu] at hfd
        exact ghost_false (hfu.good hf (hfd.good hf hs.tallied.own.inv).inv) hg
    obtain ⟨s', rfl, hs', hlt', ha', _⟩ := hs.dest hf hne hv hlt ha t3 (by simpa using t1) (by simp) hu hg1 hT1
    simp only [List.getLast?_singleton, Option.getD_some] at ha' he
    cases hcode with
    | @known _ _ _ _ _ _ b2 hc hcode =>
      obtain ⟨p1, p2⟩ := q1 c hc
      rw [p2] at e1
      cases e1
      rw [p1] at he
      simp only [Bool.false_eq_true, if_false] at he
      obtain ⟨l2, l3⟩ := ih ht' hs' hlt' ha' hcode hT he hg
      refine ⟨?_, l3⟩
      rw [l2, List.length_cons, ← add_assoc b, show n + 1 + (text.length + 1) = n + (text.length + 1 + 1) by omega]
    | @unknown _ _ _ _ _ k2 b2 hc hcode =>
      obtain ⟨p1, p2⟩ := q2 (encode c) fun x hx e => hc (by rw [← ht.apart x hx c (by simp) e]; exact hx)
      rw [p2] at e1
      cases e1
      rw [p1] at he
      simp only [if_true] at he
      rw [pairs_add_unknown hc] at hs' he
      obtain ⟨l2, l3⟩ := ih ht' hs' hlt' ha' hcode hT he hg
      refine ⟨?_, l3⟩
      rw [l2, List.length_cons, ← add_assoc b, show n + 1 + (text.length + 1) = n + (text.length + 1 + 1) by omega,
        show k + 1 + k2 = k + (k2 + 1) by omega]

theorem PairSitting.lines (hf : (env Arith.xr encode fuel orderN orderV).Fair) (hne : V ≠ []) (hnd : V.Nodup)
    (hE : Client.Rearranges (Client.Env.xr sort decode)) (h0 : decode [] = [])
    (hv : Serving encode fuel orderN orderV models cfg) (file : List (List Int)) (ht : ∀ line ∈ file, Spelt encode decode V line) :
    ∀ {T T' : Pairs} {w w' : Client.World XR (Hub Arith.xr (Component Arith.xr) × (Nat → XR))}
      {n k k' : Nat} {b b' : ℝ} {out : Option (Client.Totals XR)},
    PairSitting encode fuel orderN orderV models cfg V T w.srv.1 → PairsCodedFile encode V T file k' b' T' → T'.Within V →
    Client.bitsLines (A := Arith.xr) (Client.Env.xr sort decode) (service (env Arith.xr encode fuel orderN orderV) decode) w ⟨n, k, .fin b⟩
      (file.map fun line => line.map encode) = .ok (out, w') → w'.srv.1.selfRecycled = false →
    out = some ⟨n + (file.map fun line => line.length + 1).sum, k + k', .fin (b + b')⟩ ∧
      PairSitting encode fuel orderN orderV models cfg V T' w'.srv.1 := by
  induction file with
  | nil =>
    intro T T' w w' n k k' b b' out hs hcode hT he hg
    cases hcode
    cases he
    exact ⟨by simp, hs⟩
  | cons line lines ih =>
    intro T T' w w' n k k' b b' out hs hcode hT he hg
    have hT0 : T.Within V := within_of_le hcode.grows hT
    have hcode' := hcode
    cases hcode with
    | @cons _ T1 _ _ _ k1 k2 b1 b2 c1 c2 =>
    have hT1 : T1.Within V := within_of_le c2.grows hT
    rw [List.map_cons, Client.bitsLines] at he
    have hlt : 0 < w.srv.1.states.length := hs.tallied.own.inv.pos
    have hz := stateSym_zero hs.tallied.start
    generalize hu : Client.getLMScores (A := Arith.xr) (Client.Env.xr sort decode)
      (service (env Arith.xr encode fuel orderN orderV) decode) w [] 0 = u at he
    obtain ⟨u, w1⟩ := u
    obtain ⟨rfl, hs1, hlt1, ha1, _⟩ := hs.scores (s := 0) hf hne hv h0 hT0 hlt hu
    simp only [Nat.cast_zero] at he ha1
    rw [hz] at he ha1
    obtain ⟨⟨l, w2⟩, e1, he⟩ := bind_ok.1 he
    have hg2 : w2.srv.1.selfRecycled = false := by
      cases l with
      | none => cases he; exact hg
      | some x =>
        have hfu := further_lines (A := Arith.xr) (E := Client.Env.xr sort decode) (decode := decode) rfl h0 _ he
        have hfd := further_line (A := Arith.xr) (E := Client.Env.xr sort decode) (decode := decode) rfl _ e1
        exact ghost_false (hfu.good hf (hfd.good hf hs1.tallied.own.inv).inv) hg
    obtain ⟨rfl, l3⟩ := hs1.line hf hne hnd hE h0 hv line (ht line (by simp)) (s := 0) (a := 0) hlt1 ha1 c1 hT1 e1 hg2
    obtain ⟨q2, q3⟩ := ih (fun l hl => ht l (by simp [hl])) l3 c2 hT he hg
    refine ⟨?_, q3⟩
    rw [q2, List.map_cons, List.sum_cons, ← add_assoc b, Nat.add_assoc n, Nat.add_assoc k]

/-- **C96** The client measures the bits per character of a file with a server in front of a bigram model, after any
history of requests. The measurement completes; if no state took its own place in the state buffer, in particular if there
is room, and the counts stay in the range of `int64_t`, no request is refused, and the figures reported are the number of
characters with one end for each line, the number of characters that are not in the vocabulary (the ends of the lines
among them, unless some character of the vocabulary is written as the empty string), and the average of the bits that the
file costs when it is coded with the table that the history made, while it is counted; afterwards the server has that
table. -/
theorem C96_bits (hms : models.head? = some (.bigram m0)) (hs : ∀ m ∈ models, Served encode m)
    (hsort : ∀ l, (sort l).Perm l) (hdec : decode [] = []) (hinj : ∀ a ∈ m0.utf8, ∀ b ∈ m0.utf8, encode a = encode b → a = b) :
    ∃ bound, ∀ fuel, bound ≤ fuel → ∀ orderN orderV, (env Arith.xr encode fuel orderN orderV).Fair →
      ∀ (cfg : HubConfig XR) reqs h, (cfg.mixture = .interpolation → cfg.weights.length < 2) → cfg.maxStates < 2 ^ 31 →
        Server.Reach (env Arith.xr encode fuel orderN orderV) models cfg reqs h →
        ∃ (h0 : Hub Arith.xr (Component Arith.xr)) (T : Pairs),
          initializeModels (env Arith.xr encode fuel orderN orderV) models cfg = .ok (some h0) ∧
          Counted (env Arith.xr encode fuel orderN orderV) m0.utf8 h0 (tableOf m0) reqs h T ∧
          ((∀ s cs n, Request.updateLMScores s cs n ∈ reqs → toInt32 s = 0) → T = (tableOf m0).strings m0.utf8 reqs) ∧
          ∀ file : List (List Int), file ≠ [] →
            (∀ line ∈ file, ∀ c ∈ line, 0 ≤ c ∧ decode (encode c) = [c] ∧ ∀ a ∈ m0.utf8, encode a = encode c → a = c) →
            ∀ (random : Nat → XR) (sent : List (Client.Rpc XR)),
            ∃ (res : Option (Client.BitsReport XR)) (w' : Client.World XR (Hub Arith.xr (Component Arith.xr) × (Nat → XR)))
              (k : Nat) (b : ℝ) (T' : Pairs),
              Client.calcBitsPerCharacter (Client.Env.xr sort decode) (service (env Arith.xr encode fuel orderN orderV) decode)
                ⟨(h, random), sent⟩ (file.map fun line => line.map encode) = .ok (res, w') ∧
              (1 + (reqs.map Request.symbols).sum + 4 * (file.map List.length).sum ≤ cfgMax (A := Arith.xr) cfg → w'.srv.1.selfRecycled = false) ∧
              PairsCodedFile encode m0.utf8 T file k b T' ∧
              (w'.srv.1.selfRecycled = false → T'.Within m0.utf8 →
                res = some ⟨(file.map fun line => line.length + 1).sum, k, .fin (b / ((file.map fun line => line.length + 1).sum : ℕ))⟩ ∧
                PairsAsked (env Arith.xr encode fuel orderN orderV) encode m0.utf8 T' w'.srv.1 ∧
                PairsTaught (env Arith.xr encode fuel orderN orderV) encode m0.utf8 T' w'.srv.1) := by
  obtain ⟨bound, hb⟩ := served_live hs
  have hm : 0 < models.length := by
    cases models with
    | nil => cases hms
    | cons => simp
  obtain ⟨bound', hb'⟩ := serving hs hm
  refine ⟨max bound bound', fun fuel hfu orderN orderV hf cfg reqs h hcfg hmx hr => ?_⟩
  have hw := single_weight (A := Arith.xr) hcfg
  have hmax : cfgMax (A := Arith.xr) cfg < 2 ^ 31 := by unfold cfgMax; split <;> omega
  have hj : models[0]? = some (.bigram m0) := by rw [← hms, List.head?_eq_getElem?]
  obtain ⟨h0, T, k1, k2, k3, k4, k5, k6⟩ := tallied_reach hf (hb fuel (by omega)) (j := 0) hj (by omega) hr
  have hwf : Bigram.WF m0 := hb fuel (by omega) _ (List.mem_of_getElem? hj)
  have hnd : m0.utf8.Nodup := hwf.sorted.imp fun hh => by omega
  refine ⟨h0, T, k1, k2, k4, fun file hne ht random sent => ?_⟩
  have hz : Arith.xr.ofInt 0 = .fin 0 := by simp [Arith.xr]
  obtain ⟨out, w', e⟩ := lines_ok (A := Arith.xr) (Client.Env.xr sort decode) (service (env Arith.xr encode fuel orderN orderV) decode)
    (file.map fun line => line.map encode) ⟨(h, random), sent⟩ ⟨0, 0, .fin 0⟩
  have hfu := further_lines (A := Arith.xr) (E := Client.Env.xr sort decode) (decode := decode) rfl hdec _ e
  have hsum : ((file.map fun line => line.map encode).map fun l => (l.map fun x => (decode x).length).sum).sum = (file.map List.length).sum := by
    rw [List.map_map]
    congr 1
    refine List.map_congr_left fun line hline => ?_
    simp only [Function.comp, List.map_map]
    have : line.map ((fun x => (decode x).length) ∘ encode) = line.map fun _ => 1 :=
      List.map_congr_left fun c hc => by simp [(ht line hline c hc).2.1]
    rw [this]; simp
  rw [hsum] at hfu
  obtain ⟨k, b, T', hcode⟩ := PairsCodedFile.exists (encode := encode) (V := m0.utf8) file T
  have hgood : w'.srv.1.selfRecycled = false → T'.Within m0.utf8 →
      out = some ⟨(file.map fun line => line.length + 1).sum, k, .fin b⟩ ∧
      PairsAsked (env Arith.xr encode fuel orderN orderV) encode m0.utf8 T' w'.srv.1 ∧
      PairsTaught (env Arith.xr encode fuel orderN orderV) encode m0.utf8 T' w'.srv.1 := by
    intro hg hT
    have hsit : PairSitting encode fuel orderN orderV models cfg m0.utf8 T h := ⟨⟨reqs, hr⟩, k3, by rw [k6]; omega, by rw [k5]; exact hmax⟩
    obtain ⟨l2, l3⟩ := PairSitting.lines (w := ⟨(h, random), sent⟩) hf hwf.ne hnd hsort hdec
      (hb' fuel (by omega) orderN orderV hf cfg hcfg) file
      (fun line hl => ⟨hinj, fun c hc => ⟨(ht line hl c hc).1, (ht line hl c hc).2.1⟩, fun a ha c hc => (ht line hl c hc).2.2 a ha⟩) hsit hcode hT e hg
    refine ⟨?_, l3.tallied.asks hf hT l3.weights, l3.tallied.teaches hf l3.weights⟩
    rw [l2, Nat.zero_add, Nat.zero_add, zero_add]
  have hpos : (0 : ℝ) < ((file.map fun line => line.length + 1).sum : ℕ) := by
    have : 0 < (file.map fun line => line.length + 1).sum := by
      cases file with
      | nil => exact absurd rfl hne
      | cons l ls => simp
    exact_mod_cast this
  have hroom : 1 + (reqs.map Request.symbols).sum + 4 * (file.map List.length).sum ≤ cfgMax (A := Arith.xr) cfg → w'.srv.1.selfRecycled = false := by
    intro hroom
    obtain ⟨more, f1, f2⟩ := hfu
    refine (C77_room hf (reach_append hr f1) ?_).1
    rw [List.map_append, List.sum_append]
    omega
  refine ⟨out.map fun t => ⟨t.chars, t.oov, Arith.xr.ddiv t.bits (Arith.xr.ofInt t.chars)⟩, w', k, b, T', ?_, hroom, hcode, fun hg hT => ?_⟩
  · rw [Client.calcBitsPerCharacter, hz, e]
    cases out <;> rfl
  · obtain ⟨rfl, l3⟩ := hgood hg hT
    refine ⟨?_, l3⟩
    have : Arith.xr.ddiv (XR.fin b) (Arith.xr.ofInt ((file.map fun line => line.length + 1).sum : ℕ)) =
        .fin (b / ((file.map fun line => line.length + 1).sum : ℕ)) := by
      simp only [Arith.xr, XR.div, Int.cast_natCast]
      rw [if_neg hpos.ne']
    rw [Option.map_some]
    exact congrArg (fun x => some (Client.BitsReport.mk _ k x)) this

end Mozolm.System
