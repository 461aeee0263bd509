import Verif.Props.Measure
import Verif.Props.WordChance

/-!
# C103: the bits per character with a character n-gram model and with a word n-gram model
-/

namespace Mozolm.System
open Mozolm.Hub Mozolm.Server
variable {encode : Int → Str} {decode : Str → List Int} {sort : List (XR × Str) → List (XR × Str)}

/-! ## Character n-grams -/

section
variable {m : NGram.Model XR} {env : Env Arith.xr (Component Arith.xr)} {h0 : Hub Arith.xr (Component Arith.xr)} {N : Nat}

theorem metered_measured (hm : Telling m) {eps : Str} {rest : SymbolTable} (ht : m.symbols = (0, eps) :: rest)
    (hdec : ∀ sym, ∀ c ∈ decode sym, 0 ≤ c)
    (hrep : ∀ text s, NGram.Moves encode m 0 text s → (∀ c ∈ text, 0 ≤ c) → text.length < N →
      ∃ ps, NGram.Weights m s ps ∧ (∀ p ∈ ps, 0 ≤ p) ∧ 0 < ps.sum ∧ Replies env h0 text (shares rest ps))
    {s t k : Nat} {syms : List Str} {b : ℝ} (h : Metered encode decode m s syms k b t) :
    ∀ text, NGram.Moves encode m 0 text s → (∀ c ∈ text, 0 ≤ c) → text.length + (syms.map fun sym => (decode sym).length).sum < N →
      ∃ text', Measured env decode h0 text syms k b text' := by
  have htail : m.symbols.tail = rest := by rw [ht]; rfl
  induction h with
  | nil =>
    intro text hmv hcs hN
    obtain ⟨ps, h1, h2, h3, h4⟩ := hrep text _ hmv hcs (by simpa using hN)
    exact ⟨text, .nil h4 (hm.proper ht h1 h2 h3)⟩
  | @known s t u e syms p b k he hsh hmv' _ ih =>
    intro text hmv hcs hN
    simp only [List.map_cons, List.sum_cons] at hN
    obtain ⟨ps, h1, h2, h3, h4⟩ := hrep text _ hmv hcs (by omega)
    obtain ⟨text', g1⟩ := ih (text ++ decode e.2) (moves_append hmv hmv') (fun c hc => (List.mem_append.1 hc).elim (hcs c) (hdec _ c)) (by simp only [List.length_append]; omega)
    rw [htail] at he
    have := Measured.cons h4 (hm.proper ht h1 h2 h3) (.known (share_listed ht h1 he hsh)) g1
    rw [Nat.zero_add] at this
    exact ⟨text', this⟩
  | @unknown s t u sym syms b k hn hmv' _ ih =>
    intro text hmv hcs hN
    simp only [List.map_cons, List.sum_cons] at hN
    obtain ⟨ps, h1, h2, h3, h4⟩ := hrep text _ hmv hcs (by omega)
    obtain ⟨text', g1⟩ := ih (text ++ decode sym) (moves_append hmv hmv') (fun c hc => (List.mem_append.1 hc).elim (hcs c) (hdec _ c)) (by simp only [List.length_append]; omega)
    refine ⟨text', .cons h4 (hm.proper ht h1 h2 h3) (.unknown fun hmem => ?_) g1⟩
    rw [htail] at hn
    rcases List.mem_cons.1 hmem with rfl | hmem
    · exact hn (0, []) (by simp) rfl
    · obtain ⟨e, he, rfl⟩ := List.mem_map.1 hmem
      exact hn e (List.mem_cons_of_mem _ he) rfl

theorem metered_file (hm : Telling m) {eps : Str} {rest : SymbolTable} (ht : m.symbols = (0, eps) :: rest)
    (hdec : ∀ sym, ∀ c ∈ decode sym, 0 ≤ c) (hnil : decode [] = [])
    (hrep : ∀ text s, NGram.Moves encode m 0 text s → (∀ c ∈ text, 0 ≤ c) → text.length < N →
      ∃ ps, NGram.Weights m s ps ∧ (∀ p ∈ ps, 0 ≤ p) ∧ 0 < ps.sum ∧ Replies env h0 text (shares rest ps))
    {file : List (List Str)} {k : Nat} {b : ℝ} (h : MeteredFile encode decode m file k b) :
    (file.map fun line => (line.map fun sym => (decode sym).length).sum).sum < N → MeasuredFile env decode h0 file k b := by
  induction h with
  | nil => intro _; exact .nil
  | @cons line lines k k' t b b' hl _ ih =>
    intro hN
    simp only [List.map_cons, List.sum_cons] at hN
    have hlen : ((line ++ [[]]).map fun sym => (decode sym).length).sum = (line.map fun sym => (decode sym).length).sum := by
      simp [hnil]
    obtain ⟨text', h1⟩ := metered_measured hm ht hdec hrep hl [] .nil (by simp) (by rw [hlen]; simp only [List.length_nil]; omega)
    exact .cons h1 (ih (by omega))
end

/-- **C103** (character n-grams) With a server whose first model is a character n-gram model, not mixed with the others, which
do not learn either, the file is measured as the specification says from the automaton and the table alone. -/
theorem C103_char {m : NGram.Model XR} {ms : List (Component Arith.xr)} (hs : ∀ x ∈ (.char m : Component Arith.xr) :: ms, Served encode x)
    (hfix : ∀ x ∈ ms, Fixed x) (hm : Telling m) (hdec : ∀ sym, ∀ c ∈ decode sym, 0 ≤ c) (hnil : decode [] = []) (hsort : ∀ l, (sort l).Perm l) :
    ∃ bound, ∀ fuel, bound ≤ fuel → ∀ orderN orderV, (env Arith.xr encode fuel orderN orderV).Fair →
      ∀ (cfg : HubConfig XR) h0 reqs h, (cfg.mixture = .none ∨ cfg.weights.length < 2) → cfgMax (A := Arith.xr) cfg ≤ 2 ^ 31 →
        initializeModels (env Arith.xr encode fuel orderN orderV) ((.char m : Component Arith.xr) :: ms) cfg = .ok (some h0) →
        serveAll (env Arith.xr encode fuel orderN orderV) h0 reqs = .ok h → Server.Typed reqs →
        ∀ (file : List (List Str)) k b, MeteredFile encode decode m file k b → file ≠ [] →
        (directory reqs).length + (file.map fun line => (line.map fun sym => (decode sym).length).sum).sum ≤ cfgMax (A := Arith.xr) cfg →
        ∀ (random : Nat → XR) (sent : List (Client.Rpc XR)),
        ∃ w', Client.calcBitsPerCharacter (A := Arith.xr) (Client.Env.xr sort decode) (service (env Arith.xr encode fuel orderN orderV) decode)
          ⟨(h, random), sent⟩ file =
          .ok (some ⟨(file.map fun line => line.length + 1).sum, k, .fin (b / ((file.map fun line => line.length + 1).sum : ℕ))⟩, w') := by
  obtain ⟨eps, rest, ht⟩ := hm.epsilon
  obtain ⟨b1, h1⟩ := char_replies hs hm ht
  have hfix' : ∀ x ∈ (.char m : Component Arith.xr) :: ms, Fixed x := by
    intro x hx
    rcases List.mem_cons.1 hx with rfl | hx
    · trivial
    · exact hfix x hx
  obtain ⟨b2, h2⟩ := C103_bits hs (by simp) hfix' hdec hnil hsort
  refine ⟨max b1 b2, fun fuel hf orderN orderV hfair cfg h0 reqs h hcfg h31 i0 i1 hty file k b hsp hne hroom random sent => ?_⟩
  have hd : 1 ≤ (directory reqs).length := directory_pos reqs
  have hrep : ∀ text s, NGram.Moves encode m 0 text s → (∀ c ∈ text, 0 ≤ c) → text.length < cfgMax (A := Arith.xr) cfg →
      ∃ ps, NGram.Weights m s ps ∧ (∀ p ∈ ps, 0 ≤ p) ∧ 0 < ps.sum ∧ Replies (env Arith.xr encode fuel orderN orderV) h0 text (shares rest ps) :=
    fun text s a b c => h1 fuel (by omega) orderN orderV hfair cfg h0 hcfg i0 text s b a c
  refine (h2 fuel (by omega) orderN orderV hfair cfg h0 reqs h (fun hi => by
      rcases hcfg with h | h
      · rw [h] at hi; cases hi
      · simp only [List.length_cons]; omega) h31 i0 i1 hty (fun r hr => ?_) random sent).1 file k b
    (metered_file hm ht hdec hnil hrep hsp (by omega)) hne hroom
  obtain ⟨ps, _, _, _, g4⟩ := hrep [] 0 .nil (by simp) (by simp only [List.length_nil]; omega)
  rw [hr.unique g4]
  simp [shares, XR.le]

theorem noArc_or {C : Type} {f : Fst C} {s : Nat} {l : Int} (h : ¬ ∃ w d, NGram.FirstArc f s l w d) : NGram.NoArc f s l := by
  intro st hst a ha hl
  refine h ?_
  have key : ∀ arcs : List (Arc C), (∃ a ∈ arcs, a.label = l) → ∃ pre post w d, arcs = pre ++ ⟨l, w, d⟩ :: post ∧ ∀ a ∈ pre, a.label ≠ l := by
    intro arcs
    induction arcs with
    | nil => rintro ⟨_, h, _⟩; cases h
    | cons x xs ih =>
      rintro ⟨a, h1, h2⟩
      by_cases hx : x.label = l
      · exact ⟨[], xs, x.weight, x.next, by subst hx; rfl, by simp⟩
      · rcases List.mem_cons.1 h1 with rfl | h1
        · exact absurd h2 hx
        · obtain ⟨pre, post, w, d, e, h3⟩ := ih ⟨a, h1, h2⟩
          refine ⟨x :: pre, post, w, d, by rw [e]; rfl, fun b hb => ?_⟩
          rcases List.mem_cons.1 hb with rfl | hb
          · exact hx
          · exact h3 b hb
  obtain ⟨pre, post, w, d, e, h3⟩ := key st.arcs ⟨a, ha, hl⟩
  exact ⟨w, d, st, pre, post, hst, e, h3⟩

/-- Every character other than 0 leads somewhere. -/
theorem step_exists {m : NGram.Model XR} (hm : Telling m) (hs : Served (A := Arith.xr) encode (.char m)) {eps : Str} {rest : SymbolTable}
    (ht : m.symbols = (0, eps) :: rest) (hunk : eps ≠ NGram.unk) {s : Nat} (hlt : s < m.fst.states.length) {c : Int} (hc : c ≠ 0) (hce : encode c ≠ eps) :
    ∃ t, NGram.Step encode m s c t ∧ t < m.fst.states.length := by
  have htab := hm.tabled hs
  obtain ⟨b, hb⟩ := NGram.step_next htab encode
  suffices ∃ t, NGram.Step encode m s c t by
    obtain ⟨t, h⟩ := this
    exact ⟨t, h, (hb b (Nat.le_refl _) s hlt c t hc h).2⟩
  obtain ⟨bs, hsr⟩ := NGram.searches (A := Arith.xr) htab.closed htab.acyclic
  have hlab : ∀ l str, (l, str) ∈ m.symbols → str ≠ eps → l ≠ 0 := by
    intro l str hmem hne h0
    subst h0
    rw [ht] at hmem
    rcases List.mem_cons.1 hmem with h | h
    · exact hne (congrArg Prod.snd h)
    · have hnd := hm.labels
      rw [ht, List.map_cons, List.nodup_cons] at hnd
      exact hnd.1 (List.mem_map.2 ⟨_, h, rfl⟩)
  have go : ∀ l, NGram.Reads encode m c l → l ≠ 0 → l ≠ -1 → ∃ t, NGram.Step encode m s c t := by
    intro l hr h0 h1
    rcases hsr bs (Nat.le_refl _) m.unigram s hlt l h0 h1 with ⟨ws, w, d, hF, _, _⟩ | ⟨hn, _, _⟩
    · exact ⟨d, .found hr h0 hF⟩
    · obtain ⟨d, hd⟩ := Int.eq_ofNat_of_zero_le htab.unigram.1
      exact ⟨d, .nowhere hr h0 hn hd⟩
  by_cases h1 : ∃ e ∈ m.symbols, e.2 = encode c
  · obtain ⟨⟨l, str⟩, he, rfl⟩ := h1
    exact go l (.inl he) (hlab _ _ he hce) (hm.named _ he)
  · have h1' : ∀ e ∈ m.symbols, e.2 ≠ encode c := fun e he h => h1 ⟨e, he, h⟩
    by_cases h2 : ∃ e ∈ m.symbols, e.2 = NGram.unk
    · obtain ⟨⟨l, str⟩, he, h3⟩ := h2
      simp only at h3
      subst h3
      exact go l (.inr ⟨h1', he⟩) (hlab _ _ he hunk.symm) (hm.named _ he)
    · have h2' : ∀ e ∈ m.symbols, e.2 ≠ NGram.unk := fun e he h => h2 ⟨e, he, h⟩
      obtain ⟨st, est⟩ := exists_getElem?_of_lt hlt
      by_cases h3 : ∃ w d, NGram.FirstArc m.fst s 0 w d
      · obtain ⟨w, d, hF⟩ := h3
        exact ⟨d, .unknown h1' h2' hF⟩
      · obtain ⟨d, hd⟩ := Int.eq_ofNat_of_zero_le htab.unigram.1
        exact ⟨d, .outside h1' h2' (noArc_or h3) hd⟩

theorem moves_exist {m : NGram.Model XR} (hm : Telling m) (hs : Served (A := Arith.xr) encode (.char m)) {eps : Str} {rest : SymbolTable}
    (ht : m.symbols = (0, eps) :: rest) (hunk : eps ≠ NGram.unk) : ∀ (text : List Int) {s : Nat}, s < m.fst.states.length →
    (∀ c ∈ text, c ≠ 0 ∧ encode c ≠ eps) → ∃ t, NGram.Moves encode m s text t ∧ t < m.fst.states.length := by
  intro text
  induction text with
  | nil => intro s hlt _; exact ⟨s, .nil, hlt⟩
  | cons c cs ih =>
    intro s hlt hch
    obtain ⟨t, h1, h2⟩ := step_exists hm hs ht hunk hlt (hch c (by simp)).1 (hch c (by simp)).2
    obtain ⟨u, h3, h4⟩ := ih h2 fun x hx => hch x (by simp [hx])
    exact ⟨u, .cons (hch c (by simp)).1 h1 h3, h4⟩

theorem metered_exists {m : NGram.Model XR} (hm : Telling m) (hs : Served (A := Arith.xr) encode (.char m)) {eps : Str} {rest : SymbolTable}
    (ht : m.symbols = (0, eps) :: rest) (hunk : eps ≠ NGram.unk) : ∀ (syms : List Str) {s : Nat}, s < m.fst.states.length →
    (∀ sym ∈ syms, ∀ c ∈ decode sym, c ≠ 0 ∧ encode c ≠ eps) → ∃ k b t, Metered encode decode m s syms k b t := by
  have htab := hm.tabled hs
  obtain ⟨b1, h1⟩ := NGram.worth_cost htab.closed htab.acyclic hm.weighted
  obtain ⟨b2, h2⟩ := NGram.extract_shares htab.closed htab.acyclic hm.weighted ht hm.labels hm.named
  intro syms
  induction syms with
  | nil => intro s _ _; exact ⟨_, _, _, .nil⟩
  | cons sym syms ih =>
    intro s hlt hch
    obtain ⟨t, h3, h4⟩ := moves_exist hm hs ht hunk (decode sym) hlt (hch sym (by simp))
    obtain ⟨k, b, u, h5⟩ := ih h4 fun x hx => hch x (by simp [hx])
    by_cases hk : ∃ e ∈ (0, ([] : Str)) :: m.symbols.tail, e.2 = sym
    · obtain ⟨e, he, rfl⟩ := hk
      have hne : e.1 ≠ -1 := by
        rcases List.mem_cons.1 he with rfl | he
        · decide
        · exact hm.named e (List.mem_of_mem_tail he)
      obtain ⟨p, hp, _, _⟩ := h1 b1 (Nat.le_refl _) s hlt e.1 hne
      obtain ⟨ps, hps, _, _⟩ := h2 b2 (Nat.le_refl _) s hlt
      exact ⟨_, _, _, .known he ⟨ps, p, hps, hp, rfl⟩ h3 h5⟩
    · exact ⟨_, _, _, .unknown (fun e he h => hk ⟨e, he, h⟩) h3 h5⟩

/-- **C103** (character n-grams) Every file is measured, unless it has the character 0 or a character that is written like
the first symbol of the table. -/
theorem C103_char_total {m : NGram.Model XR} (hs : Served (A := Arith.xr) encode (.char m)) (hm : Telling m) (hnil : decode [] = [])
    (hunk : ∀ e ∈ m.symbols, e.1 = 0 → e.2 ≠ NGram.unk) (file : List (List Str))
    (hch : ∀ line ∈ file, ∀ sym ∈ line, ∀ c ∈ decode sym, c ≠ 0 ∧ ∀ e ∈ m.symbols, e.1 = 0 → encode c ≠ e.2) :
    ∃ k b, MeteredFile encode decode m file k b := by
  obtain ⟨eps, rest, ht⟩ := hm.epsilon
  have h0 : ((0 : Int), eps) ∈ m.symbols := by rw [ht]; simp
  have hpos : 0 < m.fst.states.length := by have := (hm.tabled hs).closed.1; omega
  induction file with
  | nil => exact ⟨_, _, .nil⟩
  | cons line lines ih =>
    obtain ⟨k', b', h2⟩ := ih fun l hl => hch l (by simp [hl])
    obtain ⟨k, b, t, h1⟩ := metered_exists (decode := decode) hm hs ht (hunk _ h0 rfl) (line ++ [[]]) hpos fun sym hsym c hc => by
      rcases List.mem_append.1 hsym with h | h
      · exact ⟨(hch line (by simp) sym h c hc).1, (hch line (by simp) sym h c hc).2 _ h0 rfl⟩
      · rw [List.mem_singleton.1 h, hnil] at hc; cases hc
    exact ⟨_, _, .cons h1 h2⟩

/-! ## Word n-grams -/

section
variable {m : Word.Model XR} {env : Env Arith.xr (Component Arith.xr)} {h0 : Hub Arith.xr (Component Arith.xr)} {u N : Nat}

theorem keyed_measured (hT : Told env h0 m u N) (hdec : ∀ sym, ∀ c ∈ decode sym, 0 ≤ c)
    {q q' k : Nat} {p p' : Str} {syms : List Str} {b : ℝ} (h : Keyed decode m u q p syms k b q' p') :
    ∀ text, Leads m u text (.word q p) → (∀ c ∈ text, 0 ≤ c) → text.length + (syms.map fun sym => (decode sym).length).sum < N →
      ∃ text', Measured env decode h0 text syms k b text' ∧ Leads m u text' (.word q' p') ∧
        text'.length = text.length + (syms.map fun sym => (decode sym).length).sum ∧ ∀ c ∈ text', 0 ≤ c := by
  induction h with
  | @nil q p P F hO hw =>
    intro text hl hcs hN
    obtain ⟨r, r1, r2⟩ := hT text q p hcs hl (by simpa using hN) P F hO hw
    exact ⟨text, .nil r1 r2.proper, hl, by simp, hcs⟩
  | @known q q1 q2 p p1 p2 P F x b sym syms k hO hw hf hty _ ih =>
    intro text hl hcs hN
    simp only [List.map_cons, List.sum_cons] at hN
    obtain ⟨r, r1, r2⟩ := hT text q p hcs hl (by omega) P F hO hw
    obtain ⟨text', g1, g2, g3, g4⟩ := ih (text ++ decode sym) (typesAll_append hl hty) (fun c hc => (List.mem_append.1 hc).elim (hcs c) (hdec _ c)) (by simp only [List.length_append]; omega)
    have := Measured.cons r1 r2.proper (.known ((r2.follows sym x).2 hf)) g1
    rw [Nat.zero_add] at this
    exact ⟨text', this, g2, by simp [g3]; omega, g4⟩
  | @unknown q q1 q2 p p1 p2 P F b sym syms k hO hw hf hty _ ih =>
    intro text hl hcs hN
    simp only [List.map_cons, List.sum_cons] at hN
    obtain ⟨r, r1, r2⟩ := hT text q p hcs hl (by omega) P F hO hw
    obtain ⟨text', g1, g2, g3, g4⟩ := ih (text ++ decode sym) (typesAll_append hl hty) (fun c hc => (List.mem_append.1 hc).elim (hcs c) (hdec _ c)) (by simp only [List.length_append]; omega)
    refine ⟨text', .cons r1 r2.proper (.unknown fun hmem => ?_) g1, g2, by simp [g3]; omega, g4⟩
    obtain ⟨ps, e1, e2, _⟩ := r2.proper.distribution
    obtain ⟨i, hi⟩ := List.mem_iff_getElem?.1 hmem
    have hi' := lt_of_getElem?_eq_some hi
    refine hf (ps[i]'(by omega)) ((r2.follows _ _).1 (lists_listed.2 ⟨i, hi, ?_⟩))
    rw [e1, List.getElem?_map, List.getElem?_eq_getElem (by omega)]
    rfl

theorem keyed_file (hT : Told env h0 m u N) (hdec : ∀ sym, ∀ c ∈ decode sym, 0 ≤ c) (hnil : decode [] = [])
    {file : List (List Str)} {k : Nat} {b : ℝ} (h : KeyedFile decode m u file k b) :
    (file.map fun line => (line.map fun sym => (decode sym).length).sum).sum < N → MeasuredFile env decode h0 file k b := by
  induction h with
  | nil => intro _; exact .nil
  | @cons line lines k k' q b b' p hl _ ih =>
    intro hN
    simp only [List.map_cons, List.sum_cons] at hN
    have hlen : ((line ++ [[]]).map fun sym => (decode sym).length).sum = (line.map fun sym => (decode sym).length).sum := by
      simp [hnil]
    obtain ⟨text', h1, _⟩ := keyed_measured hT hdec hl [] (.nil _) (by simp) (by rw [hlen]; simp only [List.length_nil]; omega)
    exact .cons h1 (ih (by omega))
end

theorem word_silent {m : Word.Model XR} {ms : List (Component Arith.xr)} (hs : ∀ x ∈ (.word m : Component Arith.xr) :: ms, Served encode x)
    (hm : Wording m) {u : Nat} (hu : m.static.base.unigram = u) :
    ∃ bound, ∀ fuel, bound ≤ fuel → ∀ orderN orderV, (env Arith.xr encode fuel orderN orderV).Fair →
      ∀ (cfg : HubConfig XR) h0, (cfg.mixture = .none ∨ cfg.weights.length < 2) →
        initializeModels (env Arith.xr encode fuel orderN orderV) ((.word m : Component Arith.xr) :: ms) cfg = .ok (some h0) →
        ∀ text, (∀ c ∈ text, 0 ≤ c) → Leads m u text .unknown → text.length < cfgMax (A := Arith.xr) cfg →
        ∃ r, Replies (env Arith.xr encode fuel orderN orderV) h0 text r ∧ r.probs = [] := by
  have he : Word.Encodes encode m.static.base.symbols m.static.base.oov := by
    have := hs _ List.mem_cons_self
    cases this with
    | word _ h => exact h
  have hus := hm.scored.usable
  obtain ⟨b1, h1⟩ := word_walk hus he hu
  obtain ⟨b2, h2⟩ := replies_alone hs
  obtain ⟨b3, h3⟩ := Word.C32_unknown hus he
  refine ⟨max b1 (max b2 b3), fun fuel hf orderN orderV hfair cfg h0 hcfg i0 text ht hl hN => ?_⟩
  obtain ⟨I, s, w1, w2, w3⟩ := h1 fuel (by omega) text _ _ hl ht m.imp m.static.base.fst.start (.refl _) (.refl _ _) ⟨rfl, hus.closed.1⟩
  have g := h3 fuel (by omega) I m.cache w2 s (.inl w3) (Word.noScores Arith.xr)
  refine ⟨Word.noScores Arith.xr, (h2 fuel (by omega) orderN orderV hfair cfg h0 hcfg i0 text ht hN _).2 ?_, rfl⟩
  have e3 : System.walk encode fuel (.word m : Component Arith.xr) (start (.word m : Component Arith.xr)) text = (.word { m with imp := I }, s) := w1
  rw [alone, e3]
  simp only [extract, g, settle]
  rfl

/-- **C103** (word n-grams) The same with a word n-gram model, for a file in which every letter continues some word (or starts
a word of its own); a file with a letter that, inside a word, continues no word is not measured at all: the client fails. -/
theorem C103_word {m : Word.Model XR} {ms : List (Component Arith.xr)} (hs : ∀ x ∈ (.word m : Component Arith.xr) :: ms, Served encode x)
    (hfix : ∀ x ∈ ms, Fixed x) (hm : Wording m) (hdec : ∀ sym, ∀ c ∈ decode sym, 0 ≤ c) (hnil : decode [] = []) (hsort : ∀ l, (sort l).Perm l)
    {u : Nat} (hu : m.static.base.unigram = u) {P0 : Int → ℝ} {F0 : ℝ}
    (hO : Word.Outlook m.static.base.fst m.static.base.symbols m.static.base.oov m.static.base.fst.start P0 F0)
    (hpos : 0 < Word.weight m.static.base.symbols m.static.base.oov P0 F0 []) :
    ∃ bound, ∀ fuel, bound ≤ fuel → ∀ orderN orderV, (env Arith.xr encode fuel orderN orderV).Fair →
      ∀ (cfg : HubConfig XR) h0 reqs h, (cfg.mixture = .none ∨ cfg.weights.length < 2) → cfgMax (A := Arith.xr) cfg ≤ 2 ^ 31 →
        initializeModels (env Arith.xr encode fuel orderN orderV) ((.word m : Component Arith.xr) :: ms) cfg = .ok (some h0) →
        serveAll (env Arith.xr encode fuel orderN orderV) h0 reqs = .ok h → Server.Typed reqs →
        ∀ (random : Nat → XR) (sent : List (Client.Rpc XR)),
        (∀ file k b, KeyedFile decode m u file k b → file ≠ [] →
          (directory reqs).length + (file.map fun line => (line.map fun sym => (decode sym).length).sum).sum ≤ cfgMax (A := Arith.xr) cfg →
          ∃ w', Client.calcBitsPerCharacter (A := Arith.xr) (Client.Env.xr sort decode) (service (env Arith.xr encode fuel orderN orderV) decode)
            ⟨(h, random), sent⟩ file =
            .ok (some ⟨(file.map fun line => line.length + 1).sum, k, .fin (b / ((file.map fun line => line.length + 1).sum : ℕ))⟩, w')) ∧
        ∀ lines k b line sym more kk bb q p rest, KeyedFile decode m u lines k b → Keyed decode m u m.static.base.fst.start [] line kk bb q p →
          Word.TypesAll (A := Arith.xr) m.static.base.fst u m.static.base.symbols m.static.base.oov (.word q p) (decode sym) .unknown →
          (directory reqs).length + (lines.map fun line => (line.map fun sym => (decode sym).length).sum).sum +
            (line.map fun sym => (decode sym).length).sum + (decode sym).length ≤ cfgMax (A := Arith.xr) cfg →
          ∃ w', Client.calcBitsPerCharacter (A := Arith.xr) (Client.Env.xr sort decode) (service (env Arith.xr encode fuel orderN orderV) decode)
            ⟨(h, random), sent⟩ (lines ++ (line ++ sym :: more) :: rest) = .ok (none, w') := by
  obtain ⟨b1, h1⟩ := word_told hs hm hu
  obtain ⟨b3, h3⟩ := word_silent hs hm hu
  have hfix' : ∀ x ∈ (.word m : Component Arith.xr) :: ms, Fixed x := by
    intro x hx
    rcases List.mem_cons.1 hx with rfl | hx
    · trivial
    · exact hfix x hx
  obtain ⟨b2, h2⟩ := C103_bits hs (by simp) hfix' hdec hnil hsort
  refine ⟨max b1 (max b2 b3), fun fuel hf orderN orderV hfair cfg h0 reqs h hcfg h31 i0 i1 hty random sent => ?_⟩
  have hd : 1 ≤ (directory reqs).length := directory_pos reqs
  have hT := h1 fuel (by omega) orderN orderV hfair cfg h0 hcfg i0
  have h0s := h3 fuel (by omega) orderN orderV hfair cfg h0 hcfg i0
  obtain ⟨key1, key2⟩ := h2 fuel (by omega) orderN orderV hfair cfg h0 reqs h (fun hi => by
      rcases hcfg with h | h
      · rw [h] at hi; cases hi
      · simp only [List.length_cons]; omega) h31 i0 i1 hty (fun r hr => by
        by_cases hz : 0 < cfgMax (A := Arith.xr) cfg
        · obtain ⟨r', r1, r2⟩ := hT [] m.static.base.fst.start [] (by simp) (.nil _) hz P0 F0 hO hpos
          rw [hr.unique r1, r2.norm]; simp [XR.le]
        · exact absurd hz (by unfold cfgMax; split <;> omega)) random sent
  refine ⟨fun file k b hk hne hroom => key1 file k b (keyed_file hT hdec hnil hk (by omega)) hne hroom,
    fun lines k b line sym more kk bb q p rest hk hl hty' hroom => ?_⟩
  obtain ⟨text, t1, t2, t3, t4⟩ := keyed_measured hT hdec hl [] (.nil _) (by simp) (by simp only [List.length_nil]; omega)
  simp only [List.length_nil, Nat.zero_add] at t3
  obtain ⟨r, r1, r2⟩ := h0s (text ++ decode sym) (fun c hc => (List.mem_append.1 hc).elim (t4 c) (hdec _ c)) (typesAll_append t2 hty')
    (by simp only [List.length_append]; omega)
  exact key2 lines k b line sym more kk bb text r rest (keyed_file hT hdec hnil hk (by omega)) t1 r1 r2 hroom

end Mozolm.System
