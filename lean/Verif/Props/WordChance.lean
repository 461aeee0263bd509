import Verif.Word.TextSpec
import Verif.Props.TextChance

/-!
# C102: the texts that the client generates with a word n-gram model
-/

namespace Mozolm.System
open Mozolm.Hub Mozolm.Server
variable {encode : Int → Str} {decode : Str → List Int} {sort : List (XR × Str) → List (XR × Str)}

/-- What is asked of a word model: as for C32, and the end of the text is never more probable than 1. -/
structure Wording (m : Word.Model XR) : Prop where
  scored : Word.Scored m
  ends : ∀ q e, Word.EndProb m.static.base.fst q e → e ≤ 1

/-- Typing the text from the start of the model leads to the place. -/
def Leads (m : Word.Model XR) (u : Nat) (text : List Int) (Q : Word.Place) : Prop :=
  Word.TypesAll (A := Arith.xr) m.static.base.fst u m.static.base.symbols m.static.base.oov (.word m.static.base.fst.start []) text Q

theorem typesAll_append {f : Fst XR} {u : Nat} {t : SymbolTable} {oov : Int} {P Q R : Word.Place} {a b : List Int}
    (h : Word.TypesAll (A := Arith.xr) f u t oov P a Q) (h' : Word.TypesAll (A := Arith.xr) f u t oov Q b R) :
    Word.TypesAll (A := Arith.xr) f u t oov P (a ++ b) R := by
  induction h with
  | nil => exact h'
  | cons h1 _ ih => exact .cons h1 (ih h')

theorem Leads.snoc {m : Word.Model XR} {u : Nat} {text : List Int} {Q R : Word.Place} {c : Int} (h : Leads m u text Q)
    (h' : Word.Types (A := Arith.xr) m.static.base.fst u m.static.base.symbols m.static.base.oov Q c R) : Leads m u (text ++ [c]) R :=
  typesAll_append h (.cons h' (.nil _))

/-! ## What a word model says on its own -/

theorem word_walk {m : Word.Model XR} (hm : Word.Usable (A := Arith.xr) m) (he : Word.Encodes encode m.static.base.symbols m.static.base.oov)
    {u : Nat} (hu : m.static.base.unigram = u) :
    ∃ bound, ∀ fuel, bound ≤ fuel → ∀ text P Q, Word.TypesAll (A := Arith.xr) m.static.base.fst u m.static.base.symbols m.static.base.oov P text Q →
      (∀ c ∈ text, 0 ≤ c) → ∀ I s, Word.Calls (A := Arith.xr) encode m.static m.imp I → Word.Uses (A := Arith.xr) encode fuel m.static m.imp m.cache I m.cache →
      Word.Stands m.static I s P →
      ∃ I' r, System.walk encode fuel (.word { m with imp := I } : Component Arith.xr) s text = (.word { m with imp := I' }, r) ∧
        Word.Uses (A := Arith.xr) encode fuel m.static m.imp m.cache I' m.cache ∧ Word.Stands m.static I' r Q := by
  obtain ⟨bound, hb⟩ := Word.C31_typing hm.toLoaded he
  obtain ⟨u', _, hf, _, _, _⟩ := hm.toLoaded.fit
  refine ⟨bound, fun fuel hfu text P Q h => ?_⟩
  induction h with
  | nil P => intro _ I s _ hU hS; exact ⟨I, s, rfl, hU, hS⟩
  | @cons P Q R c cs h1 _ ih =>
    intro ht I s hC hU hS
    have hc : 0 ≤ c := ht c (by simp)
    have h0 : 0 ≤ s := by
      cases P with
      | unknown => rw [show s = m.static.oovState from hS, hf.oovState]; omega
      | word q p =>
        cases p with
        | nil => have := hS.1; omega
        | cons _ _ => have := hS.1; omega
    obtain ⟨r, I', g1, g2, g3, _⟩ := hb fuel hfu I hC u s c P Q hu (by omega) hS h1
    obtain ⟨I'', r', k1, k2, k3⟩ := ih (fun x hx => ht x (by simp [hx])) I' r g3 (.next hU h0 g1) g2
    refine ⟨I'', r', ?_, k2, k3⟩
    have e1 : next encode fuel (.word { m with imp := I } : Component Arith.xr) s c = (r, .word { m with imp := I' }) := by
      simp only [next, g1, settle]
    rw [System.walk, e1]
    exact k1

theorem lists_listed {r : LMScores XR} {sym : Str} {x : ℝ} : Lists r sym x ↔ Word.Listed r sym x := by
  unfold Lists Word.Listed
  rw [List.mem_iff_getElem?]
  constructor
  · rintro ⟨i, hi⟩
    obtain ⟨h1, h2⟩ := List.getElem?_zip_eq_some.1 hi
    exact ⟨i, h2, h1⟩
  · rintro ⟨i, h2, h1⟩
    exact ⟨i, List.getElem?_zip_eq_some.2 ⟨h1, h2⟩⟩

theorem mass_congr {f : Fst XR} {t : SymbolTable} {oov : Int} {q : Nat} {P P' : Int → ℝ} {F F' : ℝ} (h : Word.Outlook f t oov q P F)
    (h' : Word.Outlook f t oov q P' F') (p : Str) : Word.mass t oov P p = Word.mass t oov P' p := by
  unfold Word.mass
  congr 1
  apply List.map_congr_left
  intro e he
  obtain ⟨h1, h2⟩ := List.mem_filter.1 he
  simp only [decide_eq_true_eq] at h2
  exact (h.words e.1 e.2 ⟨h1, h2.1, h2.2.1⟩).unique (h'.words e.1 e.2 ⟨h1, h2.1, h2.2.1⟩)

theorem weight_congr {f : Fst XR} {t : SymbolTable} {oov : Int} {q : Nat} {P P' : Int → ℝ} {F F' : ℝ} (h : Word.Outlook f t oov q P F)
    (h' : Word.Outlook f t oov q P' F') (p : Str) : Word.weight t oov P F p = Word.weight t oov P' F' p := by
  unfold Word.weight
  rw [mass_congr h h' p, h.stop.unique h'.stop]

/-- The reply is that of the specification. -/
structure Worded (m : Word.Model XR) (u q : Nat) (p : Str) (r : LMScores XR) : Prop where
  proper : Proper r
  norm : r.norm = .fin 1
  follows : ∀ sym x, Lists r sym x ↔ Word.Follows m.static.base.fst u m.static.base.symbols m.static.base.oov q p sym x

theorem word_alone {m : Word.Model XR} (hm : Wording m) (he : Word.Encodes encode m.static.base.symbols m.static.base.oov)
    {u : Nat} (hu : m.static.base.unigram = u) :
    ∃ bound, ∀ fuel, bound ≤ fuel → ∀ text q p, (∀ c ∈ text, 0 ≤ c) → Leads m u text (.word q p) →
      ∀ P F, Word.Outlook m.static.base.fst m.static.base.symbols m.static.base.oov q P F →
      0 < Word.weight m.static.base.symbols m.static.base.oov P F p →
      ∃ r, alone encode fuel (.word m : Component Arith.xr) text = some r ∧ Worded m u q p r := by
  have hus := hm.scored.usable
  obtain ⟨b1, h1⟩ := word_walk hus he hu
  obtain ⟨b2, h2⟩ := Word.C32_marginals hm.scored he
  obtain ⟨b3, h3⟩ := Word.enough_of_acyclic (A := Arith.xr) hus.acyclic
  obtain ⟨u', hu', hf, _, _, _⟩ := hus.toLoaded.fit
  have : u' = u := by omega
  subst this
  refine ⟨max b1 b2, fun fuel hfu text q p ht hl P F hO hw => ?_⟩
  obtain ⟨I, s, w1, w2, w3⟩ := h1 fuel (by omega) text _ _ hl ht m.imp m.static.base.fst.start (.refl _) (.refl _ _) ⟨rfl, hus.closed.1⟩
  have hq : q < m.static.base.fst.states.length := by
    cases p with
    | nil => exact w3.2
    | cons _ _ => exact w3.2.1
  have hd := hus.vocabulary.dense
  -- the state after the word, and the end of the text there
  have hafter : ∀ l, Word.IsWord m.static.base.symbols m.static.base.oov l p → ∃ d e, Word.AfterWord (A := Arith.xr) m.static.base.fst u' q l d ∧
      Word.EndProb m.static.base.fst d e ∧ ∀ l' d', Word.IsWord m.static.base.symbols m.static.base.oov l' p →
        Word.AfterWord (A := Arith.xr) m.static.base.fst u' q l' d' → l' = l ∧ d' = d := by
    intro l hl
    have hl0 : 0 < l := by
      have := (hd.range hl.1).1
      have := hl.2.1
      omega
    obtain ⟨d, e1, _, e2, e3⟩ := Word.nextModelState_after (A := Arith.xr) hus.closed (h3 b3 (Nat.le_refl _)) hf.unigram.2 hl0 hq
    obtain ⟨-, e, e4, -, -⟩ := Word.C32_probabilities hm.scored e1
    refine ⟨d, e, e2, e4, fun l' d' hl' hd' => ?_⟩
    have := hl'.unique_label hd hl
    subst this
    exact ⟨rfl, e3 d' hd'⟩
  obtain ⟨fn, hfn, hfn1⟩ : ∃ fn, (∀ l d, Word.IsWord m.static.base.symbols m.static.base.oov l p →
      Word.AfterWord (A := Arith.xr) m.static.base.fst u' q l d → Word.EndProb m.static.base.fst d fn) ∧ fn ≤ 1 := by
    by_cases hp : ∃ l, Word.IsWord m.static.base.symbols m.static.base.oov l p
    · obtain ⟨l, hl⟩ := hp
      obtain ⟨d, e, _, a2, a3⟩ := hafter l hl
      exact ⟨e, fun l' d' hl' hd' => (a3 l' d' hl' hd').2 ▸ a2, hm.ends d e a2⟩
    · exact ⟨0, fun l _ hl _ => absurd ⟨l, hl⟩ hp, by norm_num⟩
  obtain ⟨r, c', g1, g2⟩ := h2 fuel (by omega) I m.cache w2 u' s q p P F fn hu' w3 hO.words hO.stop hfn hfn1 hw
  refine ⟨r, ?_, ⟨g2.dist, g2.once, ?_⟩, g2.norm, fun sym x => ⟨fun h => ?_, fun h => ?_⟩⟩
  · have e3 : System.walk encode fuel (.word m : Component Arith.xr) (start (.word m : Component Arith.xr)) text = (.word { m with imp := I }, s) := w1
    rw [alone, e3]
    simp only [extract, g1, settle]
    rfl
  · intro a ha b hb hne hab
    rcases g2.single a ha with rfl | ⟨c, rfl⟩
    · exact absurd rfl hne
    · rcases g2.single b hb with rfl | ⟨c', rfl⟩
      · exact absurd (List.prefix_nil.1 hab) hne
      · exact hab.eq_of_length (by simp)
  · have hL := lists_listed.1 h
    have hmem : sym ∈ r.symbols := by
      obtain ⟨i, h1, _⟩ := hL
      exact List.mem_of_getElem? h1
    rcases g2.single sym hmem with rfl | ⟨c, rfl⟩
    · rcases (g2.stop x).1 hL with ⟨a, b, rfl⟩ | ⟨l, hl, a, rfl⟩
      · exact .stop hO a b
      · obtain ⟨d, e, b1, b2, _⟩ := hafter l hl
        exact .last hO hl b1 (hfn l d hl b1) a
    · by_cases hc : c = 32
      · subst hc
        obtain ⟨l, hl, rfl⟩ := (g2.space x).1 hL
        obtain ⟨d, e, b1, b2, _⟩ := hafter l hl
        exact .space hO hl b1 (hfn l d hl b1)
      · obtain ⟨a, rfl⟩ := (g2.letter c x hc).1 hL
        exact .letter hO hc a
  · refine lists_listed.2 ?_
    cases h with
    | @letter P' F' c hO' hc hst =>
      refine (g2.letter c _ hc).2 ⟨hst, ?_⟩
      rw [mass_congr hO' hO, weight_congr hO' hO]
    | @space P' F' e l d hO' hl hA hE =>
      refine (g2.space _).2 ⟨l, hl, ?_⟩
      rw [weight_congr hO' hO, (hO'.words l p hl).unique (hO.words l p hl), hE.unique (hfn l d hl hA)]
    | @stop P' F' hO' hp hF =>
      refine (g2.stop _).2 (.inl ⟨hp, ?_, ?_⟩)
      · rw [hO.stop.unique hO'.stop]; exact hF
      · rw [weight_congr hO' hO, hO.stop.unique hO'.stop]
    | @last P' F' e l d hO' hl hA hE h0 =>
      refine (g2.stop _).2 (.inr ⟨l, hl, ?_, ?_⟩)
      · rw [(hfn l d hl hA).unique hE]; exact h0
      · rw [weight_congr hO' hO, (hO'.words l p hl).unique (hO.words l p hl), hE.unique (hfn l d hl hA)]

/-! ## Telescoping -/

theorem mass_nonneg {f : Fst XR} {t : SymbolTable} {oov : Int} {q : Nat} {P : Int → ℝ} {F : ℝ} (h : Word.Outlook f t oov q P F) (p : Str) :
    0 ≤ Word.mass t oov P p := by
  unfold Word.mass
  apply List.sum_nonneg
  intro x hx
  obtain ⟨e, he, rfl⟩ := List.mem_map.1 hx
  obtain ⟨h1, h2⟩ := List.mem_filter.1 he
  simp only [decide_eq_true_eq] at h2
  exact (h.words e.1 e.2 ⟨h1, h2.1, h2.2.1⟩).nonneg

theorem mass_ge {f : Fst XR} {t : SymbolTable} {oov : Int} {q : Nat} {P : Int → ℝ} {F : ℝ} (h : Word.Outlook f t oov q P F) {p w : Str} {l : Int}
    (hl : Word.IsWord t oov l w) (hp : p <+: w) : P l ≤ Word.mass t oov P p := by
  unfold Word.mass
  refine List.single_le_sum ?_ _ (List.mem_map.2 ⟨(l, w), List.mem_filter.2 ⟨hl.1, ?_⟩, rfl⟩)
  · intro x hx
    obtain ⟨e, he, rfl⟩ := List.mem_map.1 hx
    obtain ⟨h1, h2⟩ := List.mem_filter.1 he
    simp only [decide_eq_true_eq] at h2
    exact (h.words e.1 e.2 ⟨h1, h2.1, h2.2.1⟩).nonneg
  · simp only [decide_eq_true_eq]
    exact ⟨hl.2.1, hl.2.2, hp⟩

theorem weight_pos {f : Fst XR} {t : SymbolTable} {oov : Int} {q : Nat} {P : Int → ℝ} {F : ℝ} (h : Word.Outlook f t oov q P F) {p w : Str} {l : Int}
    (hl : Word.IsWord t oov l w) (h0 : 0 < P l) (hp : p <+: w) : 0 < Word.weight t oov P F p := by
  have h1 := mass_ge h hl hp
  have h2 := h.stop.nonneg
  unfold Word.weight
  split <;> linarith

/-- What a fresh server says of all texts up to a length. -/
def Told (env : Env Arith.xr (Component Arith.xr)) (h0 : Hub Arith.xr (Component Arith.xr)) (m : Word.Model XR) (u N : Nat) : Prop :=
  ∀ text q p, (∀ c ∈ text, 0 ≤ c) → Leads m u text (.word q p) → text.length < N →
    ∀ P F, Word.Outlook m.static.base.fst m.static.base.symbols m.static.base.oov q P F →
      0 < Word.weight m.static.base.symbols m.static.base.oov P F p → ∃ r, Replies env h0 text r ∧ Worded m u q p r

/-- Every letter of the vocabulary, and the space, is read as itself. -/
def Letters (decode : Str → List Int) (m : Word.Model XR) : Prop :=
  ∀ c : Nat, (c = 32 ∨ ∃ l w, Word.IsWord m.static.base.symbols m.static.base.oov l w ∧ c ∈ w) → decode [c] = [(c : Int)]

/-- The text as the list of its characters. -/
def characters (p : Str) : List Int := p.map fun c : Nat => (c : Int)

/-- The text as the list of its characters, each a string. -/
def strings (p : Str) : List Str := p.map fun c : Nat => [c]

section
variable {env : Env Arith.xr (Component Arith.xr)} {h0 : Hub Arith.xr (Component Arith.xr)} {m : Word.Model XR} {u N : Nat}

theorem weighed_letters (hm : Wording m) (hT : Told env h0 m u N) (hlet : Letters decode m) {q : Nat} {P : Int → ℝ} {F : ℝ}
    (hO : Word.Outlook m.static.base.fst m.static.base.symbols m.static.base.oov q P F) {l : Int} {w : Str}
    (hw : Word.IsWord m.static.base.symbols m.static.base.oov l w) (hP : 0 < P l) :
    ∀ (rest p : Str) (text : List Int), p ++ rest <+: w → Leads m u text (.word q p) → (∀ c ∈ text, 0 ≤ c) → text.length + rest.length ≤ N →
      Leads m u (text ++ characters rest) (.word q (p ++ rest)) ∧
      ∀ syms y text', Weighed env decode h0 (text ++ characters rest) syms y text' →
        Weighed env decode h0 text (strings rest ++ syms)
          (Word.weight m.static.base.symbols m.static.base.oov P F (p ++ rest) / Word.weight m.static.base.symbols m.static.base.oov P F p * y) text' := by
  intro rest
  induction rest with
  | nil =>
    intro p text hp hl _ _
    have h0 := weight_pos hO hw hP hp
    rw [List.append_nil] at hp ⊢
    refine ⟨by simpa [characters] using hl, fun syms y text' h => ?_⟩
    have h0 := weight_pos hO hw hP hp
    rw [div_self h0.ne', one_mul]
    simpa [characters, strings] using h
  | cons c rest ih =>
    intro p text hp hl ht hN
    have hp1 : p ++ [c] <+: w := List.IsPrefix.trans ⟨rest, by simp⟩ hp
    have hcw : c ∈ w := hp1.subset (by simp)
    have hdc : decode [c] = [(c : Int)] := hlet c (.inr ⟨l, w, hw, hcw⟩)
    have h32 : c ≠ 32 := fun h => (hm.scored.usable.vocabulary.words l w hw).2 (h ▸ hcw)
    have hst : Word.Starts m.static.base.symbols m.static.base.oov (p ++ [c]) := ⟨l, w, hw, hp1⟩
    simp only [List.length_cons] at hN
    have hl1 : Leads m u (text ++ [(c : Int)]) (.word q (p ++ [c])) := hl.snoc (.letter hst)
    have hpos := weight_pos hO hw hP (List.IsPrefix.trans (List.prefix_append p [c]) hp1)
    have hpos1 := weight_pos hO hw hP hp1
    obtain ⟨r, r1, r2⟩ := hT text q p ht hl (by omega) P F hO hpos
    obtain ⟨i1, i2⟩ := ih (p ++ [c]) (text ++ [(c : Int)]) (by simpa using hp) hl1
      (fun x hx => by
        rcases List.mem_append.1 hx with hx | hx
        · exact ht x hx
        · rw [List.mem_singleton.1 hx]; omega) (by simp; omega)
    refine ⟨by simpa [characters] using i1, fun syms y text' h => ?_⟩
    have h1 := i2 syms y text' (by simpa [characters] using h)
    rw [← hdc] at h1
    have h2 := Weighed.cons r1 r2.proper (by simp) ((r2.follows [c] _).2 (.letter hO h32 hst)) h1
    have e1 : Word.mass m.static.base.symbols m.static.base.oov P (p ++ [c]) = Word.weight m.static.base.symbols m.static.base.oov P F (p ++ [c]) := by
      simp [Word.weight]
    rw [e1, List.append_assoc, List.singleton_append] at h2
    have e2 : Word.weight m.static.base.symbols m.static.base.oov P F (p ++ [c]) / Word.weight m.static.base.symbols m.static.base.oov P F p *
        (Word.weight m.static.base.symbols m.static.base.oov P F (p ++ c :: rest) / Word.weight m.static.base.symbols m.static.base.oov P F (p ++ [c]) * y) =
        Word.weight m.static.base.symbols m.static.base.oov P F (p ++ c :: rest) / Word.weight m.static.base.symbols m.static.base.oov P F p * y := by
      field_simp
    rw [e2] at h2
    exact h2

theorem weighed_words (hm : Wording m) (hT : Told env h0 m u N) (hlet : Letters decode m) {q q' : Nat} {ws : List Str} {x : ℝ}
    (h : Word.Sentence m.static.base.fst u m.static.base.symbols m.static.base.oov q ws x q') :
    ∀ text : List Int, Leads m u text (.word q []) → (∀ c ∈ text, 0 ≤ c) → text.length + (Word.spaced ws).length ≤ N →
      Leads m u (text ++ characters (Word.spaced ws)) (.word q' []) ∧
      (∃ P F, Word.Outlook m.static.base.fst m.static.base.symbols m.static.base.oov q' P F ∧ 0 < Word.weight m.static.base.symbols m.static.base.oov P F []) ∧
      ∀ syms y text', Weighed env decode h0 (text ++ characters (Word.spaced ws)) syms y text' →
        Weighed env decode h0 text (strings (Word.spaced ws) ++ syms) (x * y) text' := by
  induction h with
  | @nil q P F hO hpos =>
    intro text hl _ _
    refine ⟨by simpa [characters, Word.spaced] using hl, ⟨P, F, hO, hpos⟩, fun syms y text' h => ?_⟩
    rw [one_mul]
    simpa [characters, strings, Word.spaced] using h
  | @cons q d q' P F e x l w ws hO hw hP hA hE _ ih =>
    intro text hl ht hN
    have hN' : text.length + (w.length + 1 + (Word.spaced ws).length) ≤ N := by
      have : (Word.spaced (w :: ws)).length = w.length + 1 + (Word.spaced ws).length := by simp only [Word.spaced, List.flatMap_cons, List.length_append, List.length_cons, List.length_nil]
      omega
    have hw0 : w ≠ [] := (hm.scored.usable.vocabulary.words l w hw).1
    obtain ⟨a1, a2⟩ := weighed_letters hm hT hlet hO hw hP w [] text (by simp) hl ht (by omega)
    rw [List.nil_append] at a1 a2
    have ht1 : ∀ c ∈ text ++ characters w, 0 ≤ c := by
      intro c hc
      rcases List.mem_append.1 hc with hc | hc
      · exact ht c hc
      · obtain ⟨n, _, rfl⟩ := List.mem_map.1 hc; omega
    have hl1 : Leads m u (text ++ characters w ++ [32]) (.word d []) := a1.snoc (.complete hw0 hw hA)
    obtain ⟨b1, b2, b3⟩ := ih (text ++ characters w ++ [32]) hl1
      (fun c hc => by
        rcases List.mem_append.1 hc with hc | hc
        · exact ht1 c hc
        · rw [List.mem_singleton.1 hc]; decide) (by simp [characters]; omega)
    have hpos := weight_pos hO hw hP (List.prefix_refl w)
    obtain ⟨r, r1, r2⟩ := hT (text ++ characters w) q w ht1 a1 (by simp [characters]; omega) P F hO hpos
    have hdc : decode [32] = [32] := hlet 32 (.inl rfl)
    have e0 : text ++ characters w ++ [32] ++ characters (Word.spaced ws) = text ++ characters (Word.spaced (w :: ws)) := by
      simp [characters, Word.spaced]
    refine ⟨by rw [← e0]; exact b1, b2, fun syms y text' h => ?_⟩
    rw [← e0] at h
    have h1 := b3 syms y text' h
    rw [← hdc] at h1
    have h2 := a2 _ _ _ (Weighed.cons r1 r2.proper (by simp) ((r2.follows [32] _).2 (.space hO hw hA hE)) h1)
    have e1 : strings w ++ [32] :: (strings (Word.spaced ws) ++ syms) = strings (Word.spaced (w :: ws)) ++ syms := by
      simp [strings, Word.spaced]
    have e2 : Word.weight m.static.base.symbols m.static.base.oov P F w / Word.weight m.static.base.symbols m.static.base.oov P F [] *
        (P l * (1 - e) / Word.weight m.static.base.symbols m.static.base.oov P F w * (x * y)) =
        P l / (Word.mass m.static.base.symbols m.static.base.oov P [] + F) * (1 - e) * x * y := by
      have hW : Word.weight m.static.base.symbols m.static.base.oov P F [] = Word.mass m.static.base.symbols m.static.base.oov P [] + F := by simp [Word.weight]
      rw [← hW]
      have hz := weight_pos hO hw hP (List.nil_prefix (l := w))
      field_simp
    rw [e1, e2] at h2
    exact h2
end

theorem word_told {m : Word.Model XR} {ms : List (Component Arith.xr)} (hs : ∀ x ∈ (.word m : Component Arith.xr) :: ms, Served encode x)
    (hm : Wording m) {u : Nat} (hu : m.static.base.unigram = u) :
    ∃ bound, ∀ fuel, bound ≤ fuel → ∀ orderN orderV, (env Arith.xr encode fuel orderN orderV).Fair →
      ∀ (cfg : HubConfig XR) h0, (cfg.mixture = .none ∨ cfg.weights.length < 2) →
        initializeModels (env Arith.xr encode fuel orderN orderV) ((.word m : Component Arith.xr) :: ms) cfg = .ok (some h0) →
        Told (env Arith.xr encode fuel orderN orderV) h0 m u (cfgMax (A := Arith.xr) cfg) := by
  have he : Word.Encodes encode m.static.base.symbols m.static.base.oov := by
    have := hs _ List.mem_cons_self
    cases this with
    | word _ h => exact h
  obtain ⟨b1, h1⟩ := word_alone hm he hu
  obtain ⟨b2, h2⟩ := replies_alone hs
  refine ⟨max b1 b2, fun fuel hf orderN orderV hfair cfg h0 hcfg i0 text q p ht hl hN P F hO hpos => ?_⟩
  obtain ⟨r, g1, g2⟩ := h1 fuel (by omega) text q p ht hl P F hO hpos
  exact ⟨r, (h2 fuel (by omega) orderN orderV hfair cfg h0 hcfg i0 text ht hN _).2 g1, g2⟩

theorem sum_nonpos_of {l : List ℝ} (h : ∀ x ∈ l, x ≤ 0) : l.sum ≤ 0 := by
  induction l with
  | nil => simp
  | cons a l ih =>
    rw [List.sum_cons]
    have := h a (by simp)
    have := ih fun x hx => h x (by simp [hx])
    linarith

theorem mass_witness {t : SymbolTable} {oov : Int} {P : Int → ℝ} {p : Str} (h : 0 < Word.mass t oov P p) :
    ∃ l w, Word.IsWord t oov l w ∧ p <+: w ∧ 0 < P l := by
  by_contra hn
  push Not at hn
  refine absurd h (not_lt.2 (sum_nonpos_of ?_))
  intro x hx
  obtain ⟨e, he, rfl⟩ := List.mem_map.1 hx
  obtain ⟨h1, h2⟩ := List.mem_filter.1 he
  simp only [decide_eq_true_eq] at h2
  exact hn e.1 e.2 ⟨h1, h2.1, h2.2.1⟩ h2.2.2

theorem strings_flatten (p : Str) : (strings p).flatten = p := by
  induction p with
  | nil => rfl
  | cons c p ih => simp only [strings, List.map_cons, List.flatten_cons] at ih ⊢; rw [ih]; rfl

theorem strings_dropLast {p : Str} (h : p.length ≤ 128) : (strings p).dropLast.flatten.length < 128 := by
  have e : (strings p).dropLast = strings p.dropLast := by simp [strings, List.map_dropLast]
  rw [e, strings_flatten, List.length_dropLast]
  omega

theorem strings_decoded {m : Word.Model XR} (hlet : Letters decode m) {p : Str}
    (h : ∀ c ∈ p, c = 32 ∨ ∃ l w, Word.IsWord m.static.base.symbols m.static.base.oov l w ∧ c ∈ w) :
    ((strings p).map fun sym => (decode sym).length).sum = p.length := by
  induction p with
  | nil => rfl
  | cons c p ih =>
    have := ih fun x hx => h x (by simp [hx])
    simp only [strings, List.map_cons, List.sum_cons, List.length_cons] at this ⊢
    rw [hlet c (h c (by simp)), this]
    simp; omega

theorem sentence_letters {m : Word.Model XR} {u q q' : Nat} {ws : List Str} {x : ℝ}
    (h : Word.Sentence m.static.base.fst u m.static.base.symbols m.static.base.oov q ws x q') :
    ∀ c ∈ Word.spaced ws, c = 32 ∨ ∃ l w, Word.IsWord m.static.base.symbols m.static.base.oov l w ∧ c ∈ w := by
  induction h with
  | nil => intro c hc; simp [Word.spaced] at hc
  | @cons q d q' P F e x l w ws _ hw _ _ _ _ ih =>
    intro c hc
    simp only [Word.spaced, List.flatMap_cons, List.mem_append, List.mem_singleton] at hc
    rcases hc with (hc | hc) | hc
    · exact .inr ⟨l, w, hw, hc⟩
    · exact .inl hc
    · exact ih c hc

/-- **C102** The client generates a text, starting from `ctx`, which leads to the beginning of a word, with a server whose
first model is a word n-gram model, not mixed with the others, which do not learn either; after any requests that leave room
in the state table. The text begins with `ctx`, the words `ws`, each with a space behind it, and then the letters `p`
exactly with the probability of these words, times the share of the words starting with `p` after them. It is exactly this
text with the probability that the text ends there in addition, not at all if it cannot end there. -/
theorem C102_generation {m : Word.Model XR} {ms : List (Component Arith.xr)} (hs : ∀ x ∈ (.word m : Component Arith.xr) :: ms, Served encode x)
    (hfix : ∀ x ∈ ms, Fixed x) (hm : Wording m) (hlet : Letters decode m) (hdec : ∀ sym, ∀ c ∈ decode sym, 0 ≤ c) (hnil : decode [] = [])
    (hsort : ∀ l, (sort l).Perm l) {u : Nat} (hu : m.static.base.unigram = u) :
    ∃ bound, ∀ fuel, bound ≤ fuel → ∀ orderN orderV, (env Arith.xr encode fuel orderN orderV).Fair →
      ∀ (cfg : HubConfig XR) h0 reqs h, (cfg.mixture = .none ∨ cfg.weights.length < 2) → cfgMax (A := Arith.xr) cfg ≤ 2 ^ 31 →
        initializeModels (env Arith.xr encode fuel orderN orderV) ((.word m : Component Arith.xr) :: ms) cfg = .ok (some h0) →
        serveAll (env Arith.xr encode fuel orderN orderV) h0 reqs = .ok h → Server.Typed reqs →
        ∀ (ctx : Str) (q q' : Nat) (ws : List Str) (x : ℝ) (p : Str) (P : Int → ℝ) (F : ℝ), Leads m u (decode ctx) (.word q []) →
        Word.Sentence m.static.base.fst u m.static.base.symbols m.static.base.oov q ws x q' →
        Word.Outlook m.static.base.fst m.static.base.symbols m.static.base.oov q' P F →
        (p = [] ∨ 0 < Word.mass m.static.base.symbols m.static.base.oov P p) →
        (directory reqs).length + (decode ctx).length + (Word.spaced ws ++ p).length ≤ cfgMax (A := Arith.xr) cfg →
        (Word.spaced ws ++ p).length ≤ 128 → ∀ (sent : List (Client.Rpc XR)) f, 128 ≤ f →
        uniforms {v | ∃ g w, Client.randGen (A := Arith.xr) (Client.Env.xr sort decode) (service (env Arith.xr encode fuel orderN orderV) decode) f
          ⟨(h, fun i => .fin (v i)), sent⟩ ctx = .ok (g, w) ∧ (ctx ++ (Word.spaced ws ++ p)) <+: g.text} =
          ENNReal.ofReal (x * (Word.weight m.static.base.symbols m.static.base.oov P F p / Word.weight m.static.base.symbols m.static.base.oov P F [])) ∧
        ((Word.spaced ws ++ p).length < 128 →
          (∀ y, Word.Follows m.static.base.fst u m.static.base.symbols m.static.base.oov q' p [] y →
            uniforms {v | ∃ w, Client.randGen (A := Arith.xr) (Client.Env.xr sort decode) (service (env Arith.xr encode fuel orderN orderV) decode) f
              ⟨(h, fun i => .fin (v i)), sent⟩ ctx = .ok (⟨true, ctx ++ (Word.spaced ws ++ p)⟩, w)} =
            ENNReal.ofReal (x * (Word.weight m.static.base.symbols m.static.base.oov P F p / Word.weight m.static.base.symbols m.static.base.oov P F []) * y)) ∧
          ((∀ y, ¬ Word.Follows m.static.base.fst u m.static.base.symbols m.static.base.oov q' p [] y) →
            uniforms {v | ∃ w, Client.randGen (A := Arith.xr) (Client.Env.xr sort decode) (service (env Arith.xr encode fuel orderN orderV) decode) f
              ⟨(h, fun i => .fin (v i)), sent⟩ ctx = .ok (⟨true, ctx ++ (Word.spaced ws ++ p)⟩, w)} = 0)) := by
  obtain ⟨b1, h1⟩ := word_told hs hm hu
  have hfix' : ∀ x ∈ (.word m : Component Arith.xr) :: ms, Fixed x := by
    intro x hx
    rcases List.mem_cons.1 hx with rfl | hx
    · trivial
    · exact hfix x hx
  obtain ⟨b2, h2⟩ := C100_generation hs (by simp) hfix' hdec hnil hsort
  refine ⟨max b1 b2, fun fuel hf orderN orderV hfair cfg h0 reqs h hcfg h31 i0 i1 hty ctx q q' ws x p P F hl hS hO hp hroom hshort sent f hfuel => ?_⟩
  have hd : 1 ≤ (directory reqs).length := directory_pos reqs
  have hT := h1 fuel (by omega) orderN orderV hfair cfg h0 hcfg i0
  rw [List.length_append] at hroom
  obtain ⟨a1, ⟨P', F', hO', hpos'⟩, a3⟩ := weighed_words hm hT hlet hS (decode ctx) hl (hdec ctx) (by omega)
  have hpos : 0 < Word.weight m.static.base.symbols m.static.base.oov P F [] := by rw [weight_congr hO hO']; exact hpos'
  have ht1 : ∀ c ∈ decode ctx ++ characters (Word.spaced ws), 0 ≤ c := by
    intro c hc
    rcases List.mem_append.1 hc with hc | hc
    · exact hdec ctx c hc
    · obtain ⟨n, _, rfl⟩ := List.mem_map.1 hc; omega
  have hlen1 : (decode ctx ++ characters (Word.spaced ws)).length = (decode ctx).length + (Word.spaced ws).length := by simp [characters]
  -- the letters
  have hlast : ∃ text', Leads m u text' (.word q' p) ∧ (∀ c ∈ text', 0 ≤ c) ∧ text'.length = (decode ctx).length + (Word.spaced ws).length + p.length ∧
      0 < Word.weight m.static.base.symbols m.static.base.oov P F p ∧
      (∀ c ∈ p, c = 32 ∨ ∃ l w, Word.IsWord m.static.base.symbols m.static.base.oov l w ∧ c ∈ w) ∧
      ∀ y text'', Weighed (env Arith.xr encode fuel orderN orderV) decode h0 text' [] y text'' →
        Weighed (env Arith.xr encode fuel orderN orderV) decode h0 (decode ctx ++ characters (Word.spaced ws)) (strings p)
          (Word.weight m.static.base.symbols m.static.base.oov P F p / Word.weight m.static.base.symbols m.static.base.oov P F [] * y) text'' := by
    rcases hp with rfl | hp
    · refine ⟨_, a1, ht1, by rw [hlen1]; simp, hpos, by simp, fun y text'' h => ?_⟩
      rw [div_self hpos.ne', one_mul]
      exact h
    · obtain ⟨l, w, hw, hpw, hPl⟩ := mass_witness hp
      obtain ⟨c1, c2⟩ := weighed_letters hm hT hlet hO hw hPl p [] _ (by simpa using hpw) a1 ht1 (by rw [hlen1]; omega)
      rw [List.nil_append] at c1 c2
      refine ⟨_, c1, ?_, by rw [List.length_append, hlen1]; simp [characters], weight_pos hO hw hPl hpw,
        fun c hc => .inr ⟨l, w, hw, hpw.subset hc⟩, fun y text'' h => ?_⟩
      · intro c hc
        rcases List.mem_append.1 hc with hc | hc
        · exact ht1 c hc
        · obtain ⟨n, _, rfl⟩ := List.mem_map.1 hc; omega
      · have := c2 [] y text'' h
        rwa [List.append_nil] at this
  obtain ⟨text', l1, l2, l3, l4, l5, l6⟩ := hlast
  -- the start and the end
  obtain ⟨P0, F0, hO0, hpos0⟩ : ∃ P F, Word.Outlook m.static.base.fst m.static.base.symbols m.static.base.oov q P F ∧ 0 < Word.weight m.static.base.symbols m.static.base.oov P F [] := by
    cases hS with
    | nil a b => exact ⟨_, _, a, b⟩
    | cons a b c => exact ⟨_, _, a, weight_pos a b c List.nil_prefix⟩
  obtain ⟨r, r1, r2⟩ := hT (decode ctx) q [] (hdec ctx) hl (by omega) P0 F0 hO0 hpos0
  obtain ⟨r', r1', r2'⟩ := hT text' q' p l2 l1 (by omega) P F hO l4
  have hW := a3 _ _ _ (l6 1 text' (.nil r1' r2'.proper))
  have e0 : strings (Word.spaced ws) ++ strings p = strings (Word.spaced ws ++ p) := by simp [strings]
  rw [e0, mul_one] at hW
  have key := h2 fuel (by omega) orderN orderV hfair cfg h0 reqs h (fun hi => by
      rcases hcfg with h | h
      · rw [h] at hi; cases hi
      · simp only [List.length_cons]; omega) h31 i0 i1 hty ctx r r1 (by rw [r2.norm]; simp [XR.le]) _ _ _ hW
      (by
        rw [strings_decoded hlet (fun c hc => (List.mem_append.1 hc).elim (sentence_letters hS c) (l5 c)), List.length_append]
        omega)
      (strings_dropLast hshort) sent f hfuel
  rw [strings_flatten] at key
  refine ⟨key.1, fun hlt => ⟨fun y hy => ?_, fun hn => ?_⟩⟩
  · exact key.2 hlt r' y r1' (.inl ((r2'.follows [] y).2 hy))
  · have := key.2 hlt r' 0 r1' (.inr ⟨fun hmem => ?_, rfl⟩)
    · rw [mul_zero, ENNReal.ofReal_zero] at this
      exact this
    · obtain ⟨ps, e1, e2, _⟩ := r2'.proper.distribution
      obtain ⟨i, hi⟩ := List.mem_iff_getElem?.1 hmem
      have hi' := lt_of_getElem?_eq_some hi
      refine hn (ps[i]'(by omega)) ((r2'.follows [] _).1 (lists_listed.2 ⟨i, hi, ?_⟩))
      rw [e1, List.getElem?_map, List.getElem?_eq_getElem (by omega)]
      rfl

/-- **C102** The `k` most likely continuations of `ctx` that the client prints are those that follow with the largest
probabilities after `ctx`, which leads to some place inside a word or between words. -/
theorem C102_kbest {m : Word.Model XR} {ms : List (Component Arith.xr)} (hs : ∀ x ∈ (.word m : Component Arith.xr) :: ms, Served encode x)
    (hfix : ∀ x ∈ ms, Fixed x) (hm : Wording m) (hdec : ∀ sym, ∀ c ∈ decode sym, 0 ≤ c) (hsort : SortsFalling sort) {u : Nat}
    (hu : m.static.base.unigram = u) :
    ∃ bound, ∀ fuel, bound ≤ fuel → ∀ orderN orderV, (env Arith.xr encode fuel orderN orderV).Fair →
      ∀ (cfg : HubConfig XR) h0 reqs h, (cfg.mixture = .none ∨ cfg.weights.length < 2) →
        initializeModels (env Arith.xr encode fuel orderN orderV) ((.word m : Component Arith.xr) :: ms) cfg = .ok (some h0) →
        serveAll (env Arith.xr encode fuel orderN orderV) h0 reqs = .ok h → Server.Typed reqs →
        ∀ (ctx : Str) (q : Nat) (p : Str) (P : Int → ℝ) (F : ℝ), Leads m u (decode ctx) (.word q p) →
        Word.Outlook m.static.base.fst m.static.base.symbols m.static.base.oov q P F → 0 < Word.weight m.static.base.symbols m.static.base.oov P F p →
        (directory reqs).length + (decode ctx).length ≤ cfgMax (A := Arith.xr) cfg → ∀ (random : Nat → XR) (sent : List (Client.Rpc XR)) (k : Int),
        ∃ all : List Str, all.Nodup ∧ (∀ sym, sym ∈ all ↔ ∃ x, Word.Follows m.static.base.fst u m.static.base.symbols m.static.base.oov q p sym x) ∧
        (k ≤ all.length → ∃ (l : List (ℝ × Str)) (w : Client.World XR (Hub Arith.xr (Component Arith.xr) × (Nat → XR))),
          Client.oneKbestSample (A := Arith.xr) (Client.Env.xr sort decode) (service (env Arith.xr encode fuel orderN orderV) decode)
            ⟨(h, random), sent⟩ k ctx = .ok (some (l.map fun x => (.fin x.1, x.2)), w) ∧
          l.length = k.toNat ∧ (l.Pairwise fun a b => b.1 ≤ a.1) ∧ (l.map Prod.snd).Nodup ∧
          (∀ x ∈ l, Word.Follows m.static.base.fst u m.static.base.symbols m.static.base.oov q p x.2 x.1) ∧
          ∀ sym y, Word.Follows m.static.base.fst u m.static.base.symbols m.static.base.oov q p sym y → sym ∉ l.map Prod.snd → ∀ x ∈ l, y ≤ x.1) ∧
        ((all.length : Int) < k →
          Client.oneKbestSample (A := Arith.xr) (Client.Env.xr sort decode) (service (env Arith.xr encode fuel orderN orderV) decode)
            ⟨(h, random), sent⟩ k ctx = .error .ub) := by
  obtain ⟨b1, h1⟩ := word_told hs hm hu
  have hfix' : ∀ x ∈ (.word m : Component Arith.xr) :: ms, Fixed x := by
    intro x hx
    rcases List.mem_cons.1 hx with rfl | hx
    · trivial
    · exact hfix x hx
  obtain ⟨b2, h2⟩ := C100_kbest hs hfix' hdec hsort
  refine ⟨max b1 b2, fun fuel hf orderN orderV hfair cfg h0 reqs h hcfg i0 i1 hty ctx q p P F hl hO hpos hroom random sent k => ?_⟩
  have hd : 1 ≤ (directory reqs).length := directory_pos reqs
  obtain ⟨r, r1, r2⟩ := h1 fuel (by omega) orderN orderV hfair cfg h0 hcfg i0 (decode ctx) q p (hdec ctx) hl (by omega) P F hO hpos
  obtain ⟨a1, a2⟩ := h2 fuel (by omega) orderN orderV hfair cfg h0 reqs h i0 i1 hty ctx r r1 (by rw [r2.norm]; simp [XR.le]) r2.proper hroom random sent k
  refine ⟨r.symbols, r2.proper.distinct, fun sym => ⟨fun hmem => ?_, fun ⟨x, hx⟩ => ?_⟩, fun hk => ?_, a2⟩
  · obtain ⟨ps, e1, e2, _⟩ := r2.proper.distribution
    obtain ⟨i, hi⟩ := List.mem_iff_getElem?.1 hmem
    have hi' := lt_of_getElem?_eq_some hi
    refine ⟨ps[i]'(by omega), (r2.follows _ _).1 (lists_listed.2 ⟨i, hi, ?_⟩)⟩
    rw [e1, List.getElem?_map, List.getElem?_eq_getElem (by omega)]
    rfl
  · obtain ⟨i, hi, _⟩ := lists_listed.1 ((r2.follows sym x).2 hx)
    exact List.mem_of_getElem? hi
  · obtain ⟨l, w, hb, e⟩ := a1 hk
    exact ⟨l, w, e, hb.length, hb.order, hb.distinct, fun x hx => (r2.follows _ _).1 (hb.listed x hx),
      fun sym y hy hn x hx => hb.best sym y ((r2.follows sym y).2 hy) hn x hx⟩

end Mozolm.System
