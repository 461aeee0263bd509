import Verif.System.MeasuredSpec
import Verif.System.Listing
import Verif.Props.Weigh
import Verif.Props.Code

/-!
# C103: the bits per character that the client reports, with models that do not learn
-/

namespace Mozolm.System
open Mozolm.Hub Mozolm.Server
variable {encode : Int → Str} {decode : Str → List Int} {sort : List (XR × Str) → List (XR × Str)} {models : List (Component Arith.xr)}

/-! ## One symbol -/

theorem proper_listing {r : LMScores XR} (h : Proper r) :
    ∃ p : ℕ → ℝ, r.probs = (List.range r.symbols.length).map (fun y => XR.fin (p y)) ∧ ∀ y, 0 ≤ p y := by
  obtain ⟨ps, e1, e2, e3, _⟩ := h.distribution
  refine ⟨fun y => ps.getD y 0, ?_, fun y => ?_⟩
  · rw [e1]
    refine List.ext_getElem? fun i => ?_
    simp only [List.getElem?_map]
    cases hi : ps[i]? with
    | none =>
      have := List.getElem?_eq_none_iff.1 hi
      rw [List.getElem?_eq_none (by simpa [← e2] using this)]; rfl
    | some x =>
      have := lt_of_getElem?_eq_some hi
      rw [List.getElem?_range (by omega)]
      simp [List.getD_eq_getElem?_getD, hi]
  · simp only [List.getD_eq_getElem?_getD]
    cases hi : ps[y]? with
    | none => simp
    | some x => exact e3 x (List.mem_of_getElem? hi)

theorem heard_bits {r : LMScores XR} (h : Proper r) (hsort : ∀ l, (sort l).Perm l) {sym : Str} {k : Nat} {b : ℝ} (hh : Prices r sym k b) :
    (if (Client.findStringIndex (A := Arith.xr) (sort (r.probs.zip r.symbols)) sym).isNone then 1 else 0) = k ∧
    Client.calculateBits (A := Arith.xr) (Client.Env.xr sort decode) (Client.findStringIndex (A := Arith.xr) (sort (r.probs.zip r.symbols)) sym)
      (sort (r.probs.zip r.symbols)) = .ok (.fin b) := by
  obtain ⟨p, hp, h0⟩ := proper_listing h
  have hperm := hsort (r.probs.zip r.symbols)
  cases hh with
  | @known x hl =>
    obtain ⟨i, hi⟩ := List.mem_iff_getElem?.1 (show (XR.fin x, sym) ∈ r.probs.zip r.symbols from hl)
    obtain ⟨h1, h2⟩ := List.getElem?_zip_eq_some.1 hi
    have hlt := lt_of_getElem?_eq_some h2
    rw [hp, List.getElem?_map, List.getElem?_range hlt] at h1
    injection h1 with h1
    injection h1 with h1
    subst h1
    generalize sort (r.probs.zip r.symbols) = scores at hperm ⊢
    rw [hp] at hperm
    obtain ⟨a, b⟩ := bits_at (sort := sort) (decode := decode) (p := p) h.distinct (Nat.le_refl _) hperm hlt h2 (h0 i)
    exact ⟨by rw [a]; rfl, b⟩
  | unknown hn =>
    obtain ⟨a, b⟩ := bits_none (sort := sort) (decode := decode) (scores := sort (r.probs.zip r.symbols)) (sym := sym) fun x hx e =>
      hn (e ▸ (List.of_mem_zip (a := x.1) (b := x.2) (hperm.mem_iff.1 hx)).2)
    exact ⟨by rw [a]; rfl, b⟩

/-- Where the server is: the requests it has had, and the state that stands for a text. -/
structure Standing (env : Env Arith.xr (Component Arith.xr)) (h0 h : Hub Arith.xr (Component Arith.xr)) (text : List Int) (s size : Nat) : Prop where
  requests : ∃ reqs, serveAll env h0 reqs = .ok h ∧ Server.Typed reqs ∧ (directory reqs)[s]? = some text ∧ (directory reqs).length ≤ size

theorem measured_dest (hs : ∀ m ∈ models, Served encode m) (hm : 0 < models.length) (hfix : ∀ m ∈ models, Fixed m)
    (hdec : ∀ sym, ∀ c ∈ decode sym, 0 ≤ c) :
    ∃ bound, ∀ fuel, bound ≤ fuel → ∀ orderN orderV, (env Arith.xr encode fuel orderN orderV).Fair →
      ∀ (cfg : HubConfig XR) h0, (cfg.mixture = .interpolation → cfg.weights.length ≤ models.length) → cfgMax (A := Arith.xr) cfg ≤ 2 ^ 31 →
        initializeModels (env Arith.xr encode fuel orderN orderV) models cfg = .ok (some h0) →
        ∀ h text s size, Standing (env Arith.xr encode fuel orderN orderV) h0 h text s size →
        ∀ (sym : Str) r, size + (decode sym).length ≤ cfgMax (A := Arith.xr) cfg → Replies (env Arith.xr encode fuel orderN orderV) h0 (text ++ decode sym) r →
        ∀ (random : Nat → XR) (sent : List (Client.Rpc XR)),
        (Proper r → ∃ (h' : Hub Arith.xr (Component Arith.xr)) (s' : Nat) (sent' : List (Client.Rpc XR)),
          Client.updateCountGetDestStateScore (A := Arith.xr) (Client.Env.xr sort decode) (service (env Arith.xr encode fuel orderN orderV) decode)
            ⟨(h, random), sent⟩ sym s 1 = (some ((s' : Int), sort (r.probs.zip r.symbols)), ⟨(h', random), sent'⟩) ∧
          Standing (env Arith.xr encode fuel orderN orderV) h0 h' (text ++ decode sym) s' (size + (decode sym).length)) ∧
        (r.probs = [] → ∃ w, Client.updateCountGetDestStateScore (A := Arith.xr) (Client.Env.xr sort decode) (service (env Arith.xr encode fuel orderN orderV) decode)
            ⟨(h, random), sent⟩ sym s 1 = (none, w)) := by
  obtain ⟨bound, hb⟩ := C99_update hs hm
  refine ⟨bound, fun fuel hfu orderN orderV hf cfg h0 hcfg h31 i0 h text s size hst sym r hroom hr random sent => ?_⟩
  obtain ⟨reqs, i1, ht, hs', hsize⟩ := hst
  have hsl := lt_of_getElem?_eq_some hs'
  have h32 : toInt32 (s : Int) = s := toInt32_of_range (by omega) (by omega)
  have hsrc : sourceText (directory reqs) (s : Int) = text := sourceText_get hs'
  -- counting
  have hd1 : directory (reqs ++ [.updateLMScores s (decode sym) 1]) = visits (directory reqs) text (decode sym) := by
    rw [directory_snoc, visited_update_once (by omega) (by omega), h32, hsrc]
  have hl1 := visits_length (decode sym) (directory reqs) text
  have ht1 : Server.Typed (reqs ++ [.updateLMScores s (decode sym) 1]) := by
    intro x hx
    rcases List.mem_append.1 hx with hx | hx
    · exact ht x hx
    · rw [List.mem_singleton.1 hx]; exact hdec sym
  have hup := hb fuel hfu orderN orderV hf cfg reqs h0 h hcfg i0 i1 s (decode sym) 1 (.inl hfix) ht1 (by rw [hd1]; omega) (by omega) (by omega)
  rw [h32, hsrc] at hup
  obtain ⟨g1, hr1'⟩ := hr
  obtain ⟨h1, e1⟩ := reply_of_map hup hr1'
  refine ⟨fun hp => ?_, fun hp => ?_⟩
  · have i2 : serveAll (env Arith.xr encode fuel orderN orderV) h0 (reqs ++ [.updateLMScores s (decode sym) 1]) = .ok h1 := by
      rw [serveAll_snoc, i1, ok_bind]
      simp only [serve, e1, ok_bind]
    -- the state after it
    have hs1 : (visits (directory reqs) text (decode sym))[s]? = some text := prefix_get (visits_prefix _ _ _) hs'
    have hd2 : directory (reqs ++ [.updateLMScores s (decode sym) 1] ++ [.getNextState (decode sym) s]) = visits (directory reqs) text (decode sym) := by
      rw [directory_snoc, hd1]
      show visits _ (sourceText _ (toInt32 s)) _ = _
      rw [h32, sourceText_get hs1, visits_again _ List.prefix_rfl]
    have ht2 : Server.Typed (reqs ++ [.updateLMScores s (decode sym) 1] ++ [.getNextState (decode sym) s]) := by
      intro x hx
      rcases List.mem_append.1 hx with hx | hx
      · exact ht1 x hx
      · rw [List.mem_singleton.1 hx]; exact hdec sym
    obtain ⟨k, h2, e2, hk⟩ := C79_directory hf (⟨h0, i0, i2⟩ : Server.Reach _ models cfg _ h1) (text := decode sym) (x := s) ht2
      (by rw [hd2]; omega) (.inr (by rw [hd1, h32]; have := lt_of_getElem?_eq_some hs1; omega))
    rw [hd2, hd1, h32, sourceText_get hs1] at hk
    have i3 : serveAll (env Arith.xr encode fuel orderN orderV) h0 (reqs ++ [.updateLMScores s (decode sym) 1] ++ [.getNextState (decode sym) s]) = .ok h2 := by
      rw [serveAll_snoc, i2, ok_bind]
      simp only [serve, e2, ok_bind]
    refine ⟨h2, k, (sent ++ [.update (s : Int) (decode sym) 1 (some r)]) ++ [.nextState sym (s : Int) (some (k : Int))], ?_, ⟨_, i3, ht2, by rw [hd2]; exact hk, by rw [hd2]; omega⟩⟩
    simp only [Client.updateCountGetDestStateScore, Client.rpcUpdate, Client.rpcNextState, service, h32]
    rw [show (Client.Env.xr sort decode).decode = decode from rfl, e1]
    simp only [replied, hp.top, e2]
    rfl
  · simp only [Client.updateCountGetDestStateScore, Client.rpcUpdate, Client.rpcNextState, service, h32]
    rw [show (Client.Env.xr sort decode).decode = decode from rfl, e1]
    have : ∀ x, Scores.getTopHypotheses (Client.Env.xr sort decode).sort r (-1) ≠ .ok x := by
      intro x hx
      simp only [Scores.getTopHypotheses, hp, List.length_nil] at hx
      split at hx
      · cases hx
      · split at hx
        · cases hx
        · simp at hx
    simp only [replied]
    exact ⟨_, rfl⟩

/-! ## A line, and a file -/

theorem Measured.reply {env : Env Arith.xr σ} {h0 : Hub Arith.xr σ} {text text' : List Int} {syms : List Str} {k : Nat} {b : ℝ}
    (h : Measured env decode h0 text syms k b text') : ∃ r, Replies env h0 text r ∧ Proper r := by
  cases h with
  | nil a b => exact ⟨_, a, b⟩
  | cons a b _ _ => exact ⟨_, a, b⟩

theorem measured_line (hs : ∀ m ∈ models, Served encode m) (hm : 0 < models.length) (hfix : ∀ m ∈ models, Fixed m)
    (hdec : ∀ sym, ∀ c ∈ decode sym, 0 ≤ c) (hsort : ∀ l, (sort l).Perm l) :
    ∃ bound, ∀ fuel, bound ≤ fuel → ∀ orderN orderV, (env Arith.xr encode fuel orderN orderV).Fair →
      ∀ (cfg : HubConfig XR) h0, (cfg.mixture = .interpolation → cfg.weights.length ≤ models.length) → cfgMax (A := Arith.xr) cfg ≤ 2 ^ 31 →
        initializeModels (env Arith.xr encode fuel orderN orderV) models cfg = .ok (some h0) →
        ∀ text syms k b text', Measured (env Arith.xr encode fuel orderN orderV) decode h0 text syms k b text' →
        ∀ h s size r, Standing (env Arith.xr encode fuel orderN orderV) h0 h text s size →
        size + (syms.map fun sym => (decode sym).length).sum ≤ cfgMax (A := Arith.xr) cfg →
        Replies (env Arith.xr encode fuel orderN orderV) h0 text r →
        ∀ (random : Nat → XR) (sent : List (Client.Rpc XR)) (n k0 : Nat) (b0 : ℝ),
        ∃ (h' : Hub Arith.xr (Component Arith.xr)) (s' : Nat) (sent' : List (Client.Rpc XR)) (r' : LMScores XR),
          Standing (env Arith.xr encode fuel orderN orderV) h0 h' text' s' (size + (syms.map fun sym => (decode sym).length).sum) ∧
          Replies (env Arith.xr encode fuel orderN orderV) h0 text' r' ∧ Proper r' ∧
          ∀ rest, Client.bitsLine (A := Arith.xr) (Client.Env.xr sort decode) (service (env Arith.xr encode fuel orderN orderV) decode)
              ⟨(h, random), sent⟩ ⟨n, k0, .fin b0⟩ s (sort (r.probs.zip r.symbols)) (syms ++ rest) =
            Client.bitsLine (A := Arith.xr) (Client.Env.xr sort decode) (service (env Arith.xr encode fuel orderN orderV) decode)
              ⟨(h', random), sent'⟩ ⟨n + syms.length, k0 + k, .fin (b0 + b)⟩ s' (sort (r'.probs.zip r'.symbols)) rest := by
  obtain ⟨bound, hb⟩ := measured_dest (sort := sort) hs hm hfix hdec
  refine ⟨bound, fun fuel hfu orderN orderV hf cfg h0 hcfg h31 i0 text syms k b text' hme => ?_⟩
  induction hme with
  | @nil text r' hr hp =>
    intro h s size r hst _ hr' random sent n k0 b0
    cases hr.unique hr'
    exact ⟨h, s, sent, r', by simpa using hst, hr, hp, fun rest => by simp⟩
  | @cons text text' r' sym syms k k' b b' hr hp hh hw ih =>
    intro h s size r hst hroom hr' random sent n k0 b0
    cases hr.unique hr'
    simp only [List.map_cons, List.sum_cons] at hroom
    obtain ⟨r1, hr1, hp1⟩ : ∃ r1, Replies (env Arith.xr encode fuel orderN orderV) h0 (text ++ decode sym) r1 ∧ Proper r1 := by
      cases hw with
      | nil a b => exact ⟨_, a, b⟩
      | cons a b _ _ => exact ⟨_, a, b⟩
    obtain ⟨h1, s1, sent1, e1, hst1⟩ := (hb fuel hfu orderN orderV hf cfg h0 hcfg h31 i0 h text s size hst sym r1 (by omega) hr1 random sent).1 hp1
    obtain ⟨h2, s2, sent2, r2, hst2, hr2, hp2, key⟩ := ih h1 s1 _ r1 hst1 (by omega) hr1 random sent1 (n + 1) (k0 + k) (b0 + b)
    refine ⟨h2, s2, sent2, r2, by rw [List.map_cons, List.sum_cons, ← Nat.add_assoc]; exact hst2, hr2, hp2, fun rest => ?_⟩
    obtain ⟨q1, q2⟩ := heard_bits (decode := decode) hp hsort hh
    rw [List.cons_append, Client.bitsLine, q2, ok_bind]
    simp only [e1]
    have e2 : (if (Client.findStringIndex (A := Arith.xr) (sort (r'.probs.zip r'.symbols)) sym).isNone = true then k0 + 1 else k0) = k0 + k := by
      rw [← q1]; split <;> rfl
    rw [e2]
    have e3 : (XR.fin b0).add (.fin b) = .fin (b0 + b) := rfl
    rw [e3, key rest]
    simp only [List.length_cons]
    rw [show n + 1 + syms.length = n + (syms.length + 1) by omega, Nat.add_assoc, add_assoc]

/-- Where the server is when a line is finished: the beginning of a text is still state 0. -/
theorem Standing.restart {env : Env Arith.xr (Component Arith.xr)} {h0 h : Hub Arith.xr (Component Arith.xr)} {text : List Int} {s size : Nat}
    (h1 : Standing env h0 h text s size) : Standing env h0 h [] 0 size := by
  obtain ⟨reqs, a, b, _, d⟩ := h1
  exact ⟨reqs, a, b, (prefix_get (visitedAll_prefix _ [[]]) rfl), d⟩

/-- The first request of a line. -/
theorem measured_start (hs : ∀ m ∈ models, Served encode m) (hfix : ∀ m ∈ models, Fixed m) (hnil : decode [] = []) :
    ∃ bound, ∀ fuel, bound ≤ fuel → ∀ orderN orderV, (env Arith.xr encode fuel orderN orderV).Fair →
      ∀ (cfg : HubConfig XR) h0,
        initializeModels (env Arith.xr encode fuel orderN orderV) models cfg = .ok (some h0) →
        ∀ h size, Standing (env Arith.xr encode fuel orderN orderV) h0 h [] 0 size → size ≤ cfgMax (A := Arith.xr) cfg →
        ∀ r, Replies (env Arith.xr encode fuel orderN orderV) h0 [] r → ¬ XR.le r.norm (.fin 0) → Proper r →
        ∀ (random : Nat → XR) (sent : List (Client.Rpc XR)),
        ∃ (h' : Hub Arith.xr (Component Arith.xr)) (sent' : List (Client.Rpc XR)),
          Client.getLMScores (A := Arith.xr) (Client.Env.xr sort decode) (service (env Arith.xr encode fuel orderN orderV) decode)
            ⟨(h, random), sent⟩ [] 0 = (some (sort (r.probs.zip r.symbols)), ⟨(h', random), sent'⟩) ∧
          Standing (env Arith.xr encode fuel orderN orderV) h0 h' [] 0 size := by
  obtain ⟨bound, hb⟩ := C99_scores (A := Arith.xr) hs
  refine ⟨bound, fun fuel hfu orderN orderV hf cfg h0 i0 h size hst hroom r hr hn hp random sent => ?_⟩
  obtain ⟨reqs, i1, ht, hs', hsize⟩ := hst
  have hl := lt_of_getElem?_eq_some hs'
  have h32 : toInt32 (0 : Int) = 0 := by decide
  have hsrc : sourceText (directory reqs) (0 : Int) = [] := by simpa using sourceText_get hs'
  have hd : directory (reqs ++ [.getLMScores [] 0]) = directory reqs := by
    rw [directory_snoc]
    rfl
  have ht1 : Server.Typed (reqs ++ [.getLMScores [] 0]) := by
    intro x hx
    rcases List.mem_append.1 hx with hx | hx
    · exact ht x hx
    · rw [List.mem_singleton.1 hx]; intro c hc; cases hc
  have key := hb fuel hfu orderN orderV hf cfg reqs h0 h (.inl hfix) i0 i1 [] 0 ht1 (by rw [hd]; omega) (.inr (by rw [h32]; omega))
  rw [h32, hsrc] at key
  obtain ⟨g, hr'⟩ := hr
  obtain ⟨h1, e1⟩ := reply_of_map key hr'
  have i2 : serveAll (env Arith.xr encode fuel orderN orderV) h0 (reqs ++ [.getLMScores [] 0]) = .ok h1 := by
    rw [serveAll_snoc, i1, ok_bind]
    simp only [serve, e1, ok_bind]
  refine ⟨h1, sent ++ [.lmScores [] 0 (some r)], ?_, ⟨_, i2, ht1, by rw [hd]; exact hs', by rw [hd]; exact hsize⟩⟩
  simp only [Client.getLMScores, Client.getLMScore, service, h32, hnil, e1, replied, hp.top]
  rw [if_neg]
  · rfl
  · simpa [Arith.xr] using hn

theorem measured_lines (hs : ∀ m ∈ models, Served encode m) (hm : 0 < models.length) (hfix : ∀ m ∈ models, Fixed m)
    (hdec : ∀ sym, ∀ c ∈ decode sym, 0 ≤ c) (hnil : decode [] = []) (hsort : ∀ l, (sort l).Perm l) :
    ∃ bound, ∀ fuel, bound ≤ fuel → ∀ orderN orderV, (env Arith.xr encode fuel orderN orderV).Fair →
      ∀ (cfg : HubConfig XR) h0, (cfg.mixture = .interpolation → cfg.weights.length ≤ models.length) → cfgMax (A := Arith.xr) cfg ≤ 2 ^ 31 →
        initializeModels (env Arith.xr encode fuel orderN orderV) models cfg = .ok (some h0) →
        (∀ r, Replies (env Arith.xr encode fuel orderN orderV) h0 [] r → ¬ XR.le r.norm (.fin 0)) →
        ∀ file k b, MeasuredFile (env Arith.xr encode fuel orderN orderV) decode h0 file k b →
        ∀ h size, Standing (env Arith.xr encode fuel orderN orderV) h0 h [] 0 size →
        size + (file.map fun line => (line.map fun sym => (decode sym).length).sum).sum ≤ cfgMax (A := Arith.xr) cfg →
        ∀ (random : Nat → XR) (sent : List (Client.Rpc XR)) (n k0 : Nat) (b0 : ℝ),
        ∃ (h' : Hub Arith.xr (Component Arith.xr)) (sent' : List (Client.Rpc XR)),
          Standing (env Arith.xr encode fuel orderN orderV) h0 h' [] 0 (size + (file.map fun line => (line.map fun sym => (decode sym).length).sum).sum) ∧
          ∀ rest, Client.bitsLines (A := Arith.xr) (Client.Env.xr sort decode) (service (env Arith.xr encode fuel orderN orderV) decode)
              ⟨(h, random), sent⟩ ⟨n, k0, .fin b0⟩ (file ++ rest) =
            Client.bitsLines (A := Arith.xr) (Client.Env.xr sort decode) (service (env Arith.xr encode fuel orderN orderV) decode)
              ⟨(h', random), sent'⟩ ⟨n + (file.map fun line => line.length + 1).sum, k0 + k, .fin (b0 + b)⟩ rest := by
  obtain ⟨b1, hb1⟩ := measured_start (sort := sort) hs hfix hnil
  obtain ⟨b2, hb2⟩ := measured_line hs hm hfix hdec hsort
  refine ⟨max b1 b2, fun fuel hfu orderN orderV hf cfg h0 hcfg h31 i0 hn file k b hme => ?_⟩
  induction hme with
  | nil =>
    intro h size hst _ random sent n k0 b0
    exact ⟨h, sent, by simpa using hst, fun rest => by simp⟩
  | @cons line lines k k' b b' text' hl hw ih =>
    intro h size hst hroom random sent n k0 b0
    simp only [List.map_cons, List.sum_cons] at hroom
    have hlen : ((line ++ [[]]).map fun sym => (decode sym).length).sum = (line.map fun sym => (decode sym).length).sum := by
      simp [hnil]
    obtain ⟨r, hr, hp⟩ : ∃ r, Replies (env Arith.xr encode fuel orderN orderV) h0 [] r ∧ Proper r := hl.reply
    obtain ⟨h1, sent1, e1, hst1⟩ := hb1 fuel (by omega) orderN orderV hf cfg h0 i0 h size hst (by omega) r hr (hn r hr) hp random sent
    obtain ⟨h2, s2, sent2, r2, hst2, -, -, key⟩ := hb2 fuel (by omega) orderN orderV hf cfg h0 hcfg h31 i0 _ _ _ _ _ hl h1 0 size r hst1
      (by rw [hlen]; omega) hr random sent1 n k0 b0
    rw [hlen] at hst2
    obtain ⟨h3, sent3, hst3, key3⟩ := ih h2 _ hst2.restart (by omega) random sent2 (n + (line ++ [[]]).length) (k0 + k) (b0 + b)
    refine ⟨h3, sent3, by rw [List.map_cons, List.sum_cons, ← Nat.add_assoc]; exact hst3, fun rest => ?_⟩
    have key0 := key []
    rw [List.append_nil] at key0
    rw [List.cons_append, Client.bitsLines]
    simp only [e1]
    rw [show (0 : Int) = ((0 : Nat) : Int) from rfl, key0, Client.bitsLine, ok_bind]
    simp only
    rw [key3 rest]
    simp only [List.map_cons, List.sum_cons, List.length_append, List.length_cons, List.length_nil]
    rw [Nat.add_assoc, Nat.add_assoc k0, Nat.add_assoc, add_assoc b0]

/-- **C103** The client measures the bits per character of a file, with a server whose models do not learn, after any
requests that leave room in the state table (`directory reqs` lists the texts that have a state). The number of characters
reported counts an end for every line; the number of unknown ones and the bits are those of the specification, from the
replies of a fresh server to the texts before each character, however many files were measured before. If the text up to
some character gets no probabilities, the measurement of the whole file fails, without a figure for the rest of the file. -/
theorem C103_bits (hs : ∀ m ∈ models, Served encode m) (hm : 0 < models.length) (hfix : ∀ m ∈ models, Fixed m)
    (hdec : ∀ sym, ∀ c ∈ decode sym, 0 ≤ c) (hnil : decode [] = []) (hsort : ∀ l, (sort l).Perm l) :
    ∃ bound, ∀ fuel, bound ≤ fuel → ∀ orderN orderV, (env Arith.xr encode fuel orderN orderV).Fair →
      ∀ (cfg : HubConfig XR) h0 reqs h, (cfg.mixture = .interpolation → cfg.weights.length ≤ models.length) → cfgMax (A := Arith.xr) cfg ≤ 2 ^ 31 →
        initializeModels (env Arith.xr encode fuel orderN orderV) models cfg = .ok (some h0) →
        serveAll (env Arith.xr encode fuel orderN orderV) h0 reqs = .ok h → Server.Typed reqs →
        (∀ r, Replies (env Arith.xr encode fuel orderN orderV) h0 [] r → ¬ XR.le r.norm (.fin 0)) →
        ∀ (random : Nat → XR) (sent : List (Client.Rpc XR)),
        (∀ file k b, MeasuredFile (env Arith.xr encode fuel orderN orderV) decode h0 file k b → file ≠ [] →
          (directory reqs).length + (file.map fun line => (line.map fun sym => (decode sym).length).sum).sum ≤ cfgMax (A := Arith.xr) cfg →
          ∃ w', Client.calcBitsPerCharacter (A := Arith.xr) (Client.Env.xr sort decode) (service (env Arith.xr encode fuel orderN orderV) decode)
            ⟨(h, random), sent⟩ file =
            .ok (some ⟨(file.map fun line => line.length + 1).sum, k, .fin (b / ((file.map fun line => line.length + 1).sum : ℕ))⟩, w')) ∧
        ∀ lines k b line sym more kk bb text r rest, MeasuredFile (env Arith.xr encode fuel orderN orderV) decode h0 lines k b →
          Measured (env Arith.xr encode fuel orderN orderV) decode h0 [] line kk bb text →
          Replies (env Arith.xr encode fuel orderN orderV) h0 (text ++ decode sym) r → r.probs = [] →
          (directory reqs).length + (lines.map fun line => (line.map fun sym => (decode sym).length).sum).sum +
            (line.map fun sym => (decode sym).length).sum + (decode sym).length ≤ cfgMax (A := Arith.xr) cfg →
          ∃ w', Client.calcBitsPerCharacter (A := Arith.xr) (Client.Env.xr sort decode) (service (env Arith.xr encode fuel orderN orderV) decode)
            ⟨(h, random), sent⟩ (lines ++ (line ++ sym :: more) :: rest) = .ok (none, w') := by
  obtain ⟨b1, hb1⟩ := measured_lines hs hm hfix hdec hnil hsort
  obtain ⟨b2, hb2⟩ := measured_start (sort := sort) hs hfix hnil
  obtain ⟨b3, hb3⟩ := measured_line hs hm hfix hdec hsort
  obtain ⟨b4, hb4⟩ := measured_dest (sort := sort) hs hm hfix hdec
  refine ⟨max (max b1 b2) (max b3 b4), fun fuel hfu orderN orderV hf cfg h0 reqs h hcfg h31 i0 i1 hty hn random sent => ⟨fun file k b hme hne hroom => ?_,
    fun lines k b line sym more kk bb text r rest hme hml hr hp hroom => ?_⟩⟩
  · have hst : Standing (env Arith.xr encode fuel orderN orderV) h0 h [] 0 (directory reqs).length := ⟨reqs, i1, hty, (prefix_get (visitedAll_prefix _ [[]]) rfl), Nat.le_refl _⟩
    obtain ⟨h', sent', -, key⟩ := hb1 fuel (by omega) orderN orderV hf cfg h0 hcfg h31 i0 hn file k b hme h _ hst hroom random sent 0 0 0
    have hz : Arith.xr.ofInt 0 = .fin 0 := by simp [Arith.xr]
    have key0 := key []
    rw [List.append_nil] at key0
    have hpos : (0 : ℝ) < ((file.map fun line => line.length + 1).sum : ℕ) := by
      have : 0 < (file.map fun line => line.length + 1).sum := by
        cases file with
        | nil => exact absurd rfl hne
        | cons l ls => simp
      exact_mod_cast this
    refine ⟨⟨(h', random), sent'⟩, ?_⟩
    rw [Client.calcBitsPerCharacter, hz, key0, Client.bitsLines, ok_bind]
    simp only [Arith.xr, XR.div, Int.cast_natCast, Nat.zero_add, zero_add]
    rw [if_neg hpos.ne']
  · have hst : Standing (env Arith.xr encode fuel orderN orderV) h0 h [] 0 (directory reqs).length := ⟨reqs, i1, hty, (prefix_get (visitedAll_prefix _ [[]]) rfl), Nat.le_refl _⟩
    have hz : Arith.xr.ofInt 0 = .fin 0 := by simp [Arith.xr]
    obtain ⟨h1, sent1, hst1, key1⟩ := hb1 fuel (by omega) orderN orderV hf cfg h0 hcfg h31 i0 hn lines k b hme h _ hst (by omega) random sent 0 0 0
    obtain ⟨r0, hr0, hp0⟩ := hml.reply
    obtain ⟨h2, sent2, e2, hst2⟩ := hb2 fuel (by omega) orderN orderV hf cfg h0 i0 h1 _ hst1 (by omega) r0 hr0 (hn r0 hr0) hp0 random sent1
    obtain ⟨h3, s3, sent3, r3, hst3, hr3, hp3, key3⟩ := hb3 fuel (by omega) orderN orderV hf cfg h0 hcfg h31 i0 _ _ _ _ _ hml h2 0 _ r0 hst2
      (by omega) hr0 random sent2 (0 + (lines.map fun line => line.length + 1).sum) (0 + k) (0 + b)
    obtain ⟨w, e4⟩ := (hb4 fuel (by omega) orderN orderV hf cfg h0 hcfg h31 i0 h3 text s3 _ hst3 sym r (by omega) hr random sent3).2 hp
    refine ⟨w, ?_⟩
    rw [Client.calcBitsPerCharacter, hz, key1, Client.bitsLines]
    simp only [e2]
    rw [show (0 : Int) = ((0 : Nat) : Int) from rfl, List.append_assoc, key3, List.cons_append, Client.bitsLine]
    obtain ⟨x, hx⟩ := bits_ok (A := Arith.xr) (Client.Env.xr sort decode) (sort (r3.probs.zip r3.symbols)) sym
    rw [hx, ok_bind]
    simp only [e4]
    rfl

end Mozolm.System
