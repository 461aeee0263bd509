import Verif.Word.Refine
import Verif.Props.WordTables

/-!
# C31: prefix states stand for typed prefixes

For every automaton (closed, acyclic backoff), every vocabulary as in `Vocabulary` and every history of
`NextState` calls after `Read`.
-/

namespace Mozolm.Word

variable {A : Arith}

/-- `m` is a model that `Read` gave for a sound automaton and vocabulary. -/
structure Loaded (m : Model A.C) : Prop where
  read : ∃ fuel maxCache src, read A fuel maxCache src = .ok (some m)
  vocabulary : Vocabulary m.static.base.symbols m.static.base.oov
  closed : NGram.Closed m.static.base.fst
  acyclic : NGram.Acyclic m.static.base.fst

theorem Loaded.readWith {m : Model A.C} (h : Loaded m) : ∃ fuel maxCache src,
    NGram.read A src = .ok (some m.static.base) ∧
      readWith A fuel maxCache m.static.base = .ok (some m) := by
  obtain ⟨fuel, mc, src, h1⟩ := h.read
  simp only [Word.read] at h1
  cases hr : NGram.read A src with
  | error _ => rw [hr] at h1; cases h1
  | ok b =>
    rw [hr, ok_bind] at h1
    cases b with
    | none => cases h1
    | some b =>
      simp only at h1
      have hb : m.static.base = b := by
        simp only [Word.readWith] at h1
        cases hT : buildTables b.symbols b.oov with
        | error _ => rw [hT] at h1; cases h1
        | ok T =>
          rw [hT, ok_bind] at h1
          cases T with
          | none => cases h1
          | some T =>
            simp only at h1
            cases hS : establishStates (A := A) b T with
            | error _ => rw [hS] at h1; cases h1
            | ok r =>
              rw [hS, ok_bind] at h1
              cases r with
              | none => cases h1
              | some r =>
                obtain ⟨o, i⟩ := r
                simp only at h1
                cases hE : ensureCacheIndex A { base := b, tables := T, oovState := o, maxCache := if mc > b.hiOrder then mc else 2000 } fuel b.fst.start { accessed := 0, index := List.replicate b.fst.states.length (-1), entries := [] } with
                | error _ => rw [hE] at h1; cases h1
                | ok e =>
                  rw [hE, ok_bind] at h1
                  by_cases he : e.1 = true
                  · rw [if_pos he] at h1; cases h1; rfl
                  · rw [if_neg he] at h1; cases h1
      exact ⟨fuel, mc, src, by rw [hb]; exact hr, by rw [hb]; exact h1⟩

theorem Loaded.unigram {m : Model A.C} (h : Loaded m) :
    ∃ u : Nat, m.static.base.unigram = u ∧ u < m.static.base.fst.states.length := by
  obtain ⟨fuel, mc, src, h1, _⟩ := h.readWith
  have hcl := h.closed
  generalize m.static.base = b at h1 hcl ⊢
  have hc : ∀ f, src.fst = some f → f = b.fst := by
    intro f hf
    simp only [NGram.read, hf] at h1
    split at h1
    · cases h1
    · split at h1
      · cases h1
      · cases hbo : NGram.getBackoff A f f.start with
        | error _ => rw [hbo] at h1; cases h1
        | ok bo =>
          rw [hbo, ok_bind] at h1
          split at h1
          · cases h1
          · split at h1
            · cases h1
            · cases h1; rfl
  rcases (NGram.C60_read (fun f hf => by rw [hc f hf]; exact hcl.1) b).1 h1 with
    ⟨_, _, _, _, _, _, _, ⟨w, t, hb, hu⟩ | ⟨_, hu⟩⟩
  · exact ⟨t, hu, hb.lt hcl⟩
  · exact ⟨_, hu, hcl.1⟩

theorem Loaded.fit {m : Model A.C} (h : Loaded m) :
    ∃ u : Nat, m.static.base.unigram = u ∧ Fit m.static u ∧
      Built m.static.base.symbols m.static.base.oov
        (sortedWords m.static.base.symbols m.static.base.oov) m.static.tables ∧
      Ready m.static (sortedWords m.static.base.symbols m.static.base.oov) ∧
      Inv m.static (sortedWords m.static.base.symbols m.static.base.oov) m.imp := by
  obtain ⟨u, hu⟩ := h.unigram
  obtain ⟨fuel, mc, src, _, h2⟩ := h.readWith
  obtain ⟨_, g2, g3, g4, g5⟩ := readWith_inv h.vocabulary h2
  exact ⟨u, hu.1, ⟨h.vocabulary, h.closed, hu, g2⟩, g3, g4, g5⟩

/-- States standing for something go on doing so. -/
theorem Stands.grows {m : Model A.C} (hm : Loaded m) {I I' : Implicit}
    (hi : Inv m.static (sortedWords m.static.base.symbols m.static.base.oov) I)
    (hi' : Inv m.static (sortedWords m.static.base.symbols m.static.base.oov) I') (hg : Grows I I') {s' : Int}
    {P' : Place} (hs' : Stands m.static I s' P') : Stands m.static I' s' P' := by
  obtain ⟨u', hu', hf, -, hr, -⟩ := hm.fit
  have hv := hf.vocabulary
  cases P' with
  | unknown => exact hs'
  | word q p =>
    cases p with
    | nil => exact hs'
    | cons c p =>
      obtain ⟨i, b, e, e1, e2, e3, e4⟩ := range_of_stands hr hv rfl hi (by simp) hs'
      rw [e1, ← hg.explicit]
      exact stands_of_range hr hv rfl hi' (by simp) (hg.getElem? e2) e3 e4

/-- The step of `C31_typing`, for any table in order. -/
theorem typing_step {m : Model A.C} (hm : Loaded m) {encode : Int → Str}
    (he : Encodes encode m.static.base.symbols m.static.base.oov) {fuel : Nat}
    (hfu : Enough m.static.base.fst fuel) {I : Implicit}
    (hi : Inv m.static (sortedWords m.static.base.symbols m.static.base.oov) I) {u : Nat} {s sym : Int}
    {P Q : Place} (hu : m.static.base.unigram = u) (h1 : sym ≠ -1) (hs : Stands m.static I s P)
    (ht : Types m.static.base.fst u m.static.base.symbols m.static.base.oov P sym Q) :
    ∃ r I', nextState A encode fuel m.static I s sym = .ok (r, I') ∧ Stands m.static I' r Q ∧ 0 ≤ s ∧
      Inv m.static (sortedWords m.static.base.symbols m.static.base.oov) I' ∧ Grows I I' := by
  obtain ⟨u', hu', hf, -, hr, -⟩ := hm.fit
  have : u' = u := by omega
  subst this
  generalize hWe : sortedWords m.static.base.symbols m.static.base.oov = W at hr hi
  have hW := hWe.symm
  have hv := hf.vocabulary
  have hs0 : 0 ≤ s := by
    cases P with
    | unknown => rw [show s = _ from hs, hf.oovState]; omega
    | word q p =>
      cases p with
      | nil => have := hs.1; omega
      | cons c p => have := hs.1; omega
  have fin : ∀ {r I'}, nextState A encode fuel m.static I s sym = .ok (r, I') → Inv m.static W I' →
      Grows I I' → Stands m.static I' r Q →
      ∃ r I', nextState A encode fuel m.static I s sym = .ok (r, I') ∧ Stands m.static I' r Q ∧ 0 ≤ s ∧
        Inv m.static W I' ∧ Grows I I' :=
    fun hn hi' hg hq => ⟨_, _, hn, hq, hs0, hi', hg⟩
  have first : ∀ {q : Nat}, s = q ∧ q < m.static.base.fst.states.length →
      nextState A encode fuel m.static I s sym = nextFirstLetterState encode m.static I q sym := by
    rintro q ⟨rfl, hq⟩
    have : (q : Int) < m.static.base.fst.states.length := by omega
    simp only [nextState, if_pos this]
  have oov_word : ∀ {q : Nat} {p : Str}, p ≠ [] → Stands m.static I s (.word q p) →
      ∃ (i : Nat) (b e : Int), s = I.explicit + i ∧ I.infos[i]? = some ⟨q, p.length, b, e⟩ ∧
      IsRange W p b e ∧ q < m.static.base.fst.states.length := fun hp h =>
    range_of_stands hr hv hW hi hp h
  cases ht with
  | @letter q p c hst =>
    cases p with
    | nil =>
      rcases nextFirst_spec hr hf hW he hi hs.2 (c : Int) with
        ⟨d, i, b, e, I', g1, g2, g3, g4, g5, g6⟩ | ⟨g1, _⟩
      · have : c = d := by omega
        subst this
        refine fin (by rw [first hs]; exact g3) g4 g5 ?_
        have := stands_of_range hr hv hW g4 (p := [c]) (by simp) (by simpa using g6) g2 hs.2
        rw [g5.explicit] at this
        exact this
      · exact absurd hst (g1 c rfl)
    | cons d p =>
      have h32 : (c : Int) ≠ 32 := by
        intro h
        obtain ⟨l, w, hw, hp⟩ := hst
        have hm : (32 : Nat) ∈ w := by
          have : c = 32 := by omega
          subst this
          exact hp.subset (by simp)
        exact (hv.words l w hw).2 hm
      obtain ⟨i, b, e, e1, e2, e3, e4⟩ := oov_word (by simp) hs
      subst e1
      rcases nextLetter_spec hr hf hW encode fuel hi e2 e3 e4 h1 h32 with
        ⟨c', j, b', e', I', g1, g2, g3, g4, g5, g6⟩ | ⟨g1, _⟩
      · have : c = c' := by omega
        subst this
        refine fin g3 g4 g5 ?_
        have := stands_of_range hr hv hW g4 (by simp) g6 g2 e4
        rw [g5.explicit] at this
        exact this
      · exact absurd hst (g1 c rfl)
  | @noWord q _ hno =>
    rcases nextFirst_spec hr hf hW he hi hs.2 sym with
      ⟨d, i, b, e, I', g1, g2, g3, g4, g5, g6⟩ | ⟨_, g2⟩
    · exact absurd (starts_of_range hv hW g2) (hno d g1)
    · exact fin (by rw [first hs]; exact g2) hi (.refl I) ⟨hu', hf.unigram.2⟩
  | @lost q p _ hp h32 hno =>
    obtain ⟨i, b, e, e1, e2, e3, e4⟩ := oov_word hp hs
    subst e1
    rcases nextLetter_spec hr hf hW encode fuel hi e2 e3 e4 h1 h32 with
      ⟨c', j, b', e', I', g1, g2, g3, g4, g5, g6⟩ | ⟨_, g2⟩
    · exact absurd (starts_of_range hv hW g2) (hno c' g1)
    · exact fin g2 hi (.refl I) rfl
  | @complete q d p l hp hw had =>
    obtain ⟨i, b, e, e1, e2, e3, e4⟩ := oov_word hp hs
    subst e1
    rcases nextSpace_spec hr hf hW encode hfu hi e2 e3 e4 with ⟨l', d', g1, g2, g3, g4, g5⟩ | ⟨g1, _⟩
    · have := hw.unique_label hv.dense g1
      subst this
      have := g4 d had
      subst this
      exact fin g5 hi (.refl I) ⟨rfl, g2⟩
    · exact absurd hw (g1 l)
  | @incomplete q p hp hno =>
    obtain ⟨i, b, e, e1, e2, e3, e4⟩ := oov_word hp hs
    subst e1
    rcases nextSpace_spec hr hf hW encode hfu hi e2 e3 e4 with ⟨l', d', g1, g2, g3, g4, g5⟩ | ⟨_, g2⟩
    · exact absurd g1 (hno l')
    · exact fin g2 hi (.refl I) ⟨hu', hf.unigram.2⟩
  | recover =>
    have hs' : s = m.static.oovState := hs
    subst hs'
    refine fin (r := m.static.base.unigram) (I' := I) ?_ hi (.refl I) ⟨hu', hf.unigram.2⟩
    have : ¬ (m.static.oovState < m.static.base.fst.states.length) := by rw [hf.oovState]; omega
    simp only [nextState, if_neg this, and_self, if_true]
  | stay h32 =>
    have hs' : s = m.static.oovState := hs
    subst hs'
    refine fin (r := m.static.oovState) (I' := I) ?_ hi (.refl I) rfl
    have h0 : ¬ (m.static.oovState < m.static.base.fst.states.length) := by rw [hf.oovState]; omega
    have hx := info_stored hi.wf hi.oov
    rw [hi.explicit, ← hf.oovState] at hx
    simp only [Int.natCast_zero, Int.add_zero] at hx
    simp [nextState, if_neg h0, h32, hx]

/-- **C31** (exactness, as a refinement) if a state stands for a place and a character leads from it to
another, then `NextState` succeeds and answers a state standing for the new place; states standing for
something go on doing so.  (Inside a word the symbol is not -1, which the code uses as a mark.) -/
theorem C31_typing {m : Model A.C} (hm : Loaded m) {encode : Int → Str}
    (he : Encodes encode m.static.base.symbols m.static.base.oov) :
    ∃ bound, ∀ fuel, bound ≤ fuel → ∀ I, Calls encode m.static m.imp I →
      ∀ (u : Nat) (s sym : Int) (P Q : Place), m.static.base.unigram = u → sym ≠ -1 →
      Stands m.static I s P → Types m.static.base.fst u m.static.base.symbols m.static.base.oov P sym Q →
      ∃ r I', nextState A encode fuel m.static I s sym = .ok (r, I') ∧ Stands m.static I' r Q ∧
        Calls encode m.static m.imp I' ∧
        ∀ s' P', Stands m.static I s' P' → Stands m.static I' s' P' := by
  obtain ⟨bound, hb⟩ := enough_of_acyclic hm.acyclic
  obtain ⟨u', hu', hf, -, hr, hi0⟩ := hm.fit
  refine ⟨bound, fun fuel hfu I hI u s sym P Q hu h1 hs ht => ?_⟩
  obtain ⟨hi, _⟩ := hI.inv hr hf rfl hm.acyclic he hi0
  obtain ⟨r, I', e1, e2, e3, e4, e5⟩ := typing_step hm he (hb fuel hfu) hi hu h1 hs ht
  exact ⟨r, I', e1, e2, .call hI e3 e1, fun s' P' h => h.grows hm hi e4 e5⟩

/-- The n-gram state of a place exists. -/
def Place.Valid (n : Nat) : Place → Prop
  | .word q _ => q < n
  | .unknown => True

/-- Every character leads somewhere, from every place. -/
theorem C31_total {m : Model A.C} (hm : Loaded m) {u : Nat} (hu : m.static.base.unigram = u) {P : Place}
    (hP : P.Valid m.static.base.fst.states.length) (c : Int) :
    ∃ Q, Types m.static.base.fst u m.static.base.symbols m.static.base.oov P c Q ∧
      Q.Valid m.static.base.fst.states.length := by
  classical
  obtain ⟨u', hu', hf, -, -, -⟩ := hm.fit
  have : u' = u := by omega
  subst this
  have hul := hf.unigram.2
  cases P with
  | unknown =>
    by_cases h : c = 32
    · subst h; exact ⟨_, .recover, hul⟩
    · exact ⟨_, .stay h, trivial⟩
  | word q p =>
    by_cases hc : ∃ d : Nat, c = d ∧ Starts m.static.base.symbols m.static.base.oov (p ++ [d])
    · obtain ⟨d, rfl, hd⟩ := hc
      exact ⟨_, .letter hd, hP⟩
    · by_cases hp : p = []
      · subst hp
        exact ⟨_, .noWord fun d hd h => hc ⟨d, hd, h⟩, hul⟩
      · by_cases h : c = 32
        · subst h
          by_cases hw : ∃ l, IsWord m.static.base.symbols m.static.base.oov l p
          · obtain ⟨l, hl⟩ := hw
            have hl0 : 0 < l := by
              have := (hm.vocabulary.dense.range hl.1).1
              have := hl.2.1
              omega
            obtain ⟨b, hb⟩ := enough_of_acyclic hm.acyclic
            obtain ⟨d, h1, _, h2, _⟩ := nextModelState_after hm.closed (hb b (Nat.le_refl b)) hul hl0 hP
            exact ⟨_, .complete hp hl h2, h1⟩
          · exact ⟨_, .incomplete hp fun l hl => hw ⟨l, hl⟩, hul⟩
        · exact ⟨_, .lost hp h fun d hd h' => hc ⟨d, hd, h'⟩, trivial⟩

/-- Typing a sequence of characters. -/
inductive TypesAll (f : Fst A.C) (unigram : Nat) (t : SymbolTable) (oov : Int) :
    Place → List Int → Place → Prop
  | nil (P) : TypesAll f unigram t oov P [] P
  | cons {P Q R : Place} {c : Int} {cs : List Int} : Types f unigram t oov P c Q →
      TypesAll f unigram t oov Q cs R → TypesAll f unigram t oov P (c :: cs) R

/-- The states after calling `NextState` for each of the symbols in turn. -/
def nextStates (A : Arith) (encode : Int → Str) (fuel : Nat) (M : Static A.C) :
    Implicit → Int → List Int → Except Fault (Int × Implicit)
  | I, s, [] => .ok (s, I)
  | I, s, c :: cs => do
    let r ← nextState A encode fuel M I s c
    nextStates A encode fuel M r.2 r.1 cs

/-- **C31** for a whole text: after any history of calls, typing any text from any state leads to a state
standing for the place the text leads to. -/
theorem C31_text {m : Model A.C} (hm : Loaded m) {encode : Int → Str}
    (he : Encodes encode m.static.base.symbols m.static.base.oov) :
    ∃ bound, ∀ fuel, bound ≤ fuel → ∀ (text : List Int) (I : Implicit), Calls encode m.static m.imp I →
      ∀ (u : Nat) (s : Int) (P Q : Place), m.static.base.unigram = u → (∀ c ∈ text, c ≠ -1) →
      Stands m.static I s P →
      TypesAll m.static.base.fst u m.static.base.symbols m.static.base.oov P text Q →
      ∃ r I', nextStates A encode fuel m.static I s text = .ok (r, I') ∧ Stands m.static I' r Q := by
  obtain ⟨bound, hb⟩ := C31_typing hm he
  refine ⟨bound, fun fuel hf text => ?_⟩
  induction text with
  | nil =>
    intro I _ u s P Q _ _ hs ht
    cases ht
    exact ⟨s, I, rfl, hs⟩
  | cons c cs ih =>
    intro I hI u s P Q hu hc hs ht
    cases ht with
    | cons h1 h2 =>
      obtain ⟨r, I', g1, g2, g3, _⟩ := hb fuel hf I hI u s c P _ hu (hc c (by simp)) hs h1
      obtain ⟨r', I'', k1, k2⟩ := ih I' g3 u r _ Q hu (fun x hx => hc x (by simp [hx])) g2 h2
      exact ⟨r', I'', by simp only [nextStates, g1, ok_bind, k1], k2⟩

/-- **C31** (the words themselves) a state standing for `q` followed by the letters `p` has attached
exactly the vocabulary words that start with `p`. -/
theorem C31_exact {m : Model A.C} {I : Implicit} {s : Int} {q : Nat} {p : Str} (hp : p ≠ [])
    (h : Stands m.static I s (.word q p)) (l : Int) :
    Attached m.static I s l ↔
      ∃ w, IsWord m.static.base.symbols m.static.base.oov l w ∧ p <+: w := by
  cases p with
  | nil => exact absurd rfl hp
  | cons c p =>
    obtain ⟨_, _, b, e, _, _, h⟩ := h
    exact h l

/-- **C31** (no prefix) every n-gram state has attached all words. -/
theorem C31_all_words {m : Model A.C} (hm : Loaded m) {encode : Int → Str}
    (he : Encodes encode m.static.base.symbols m.static.base.oov) {I : Implicit}
    (hI : Calls encode m.static m.imp I) {q : Nat} (hq : q < m.static.base.fst.states.length) (l : Int) :
    Attached m.static I q l ↔ ∃ w, IsWord m.static.base.symbols m.static.base.oov l w := by
  obtain ⟨u, hu, hf, -, hr, hi0⟩ := hm.fit
  obtain ⟨hi, -⟩ := hI.inv hr hf rfl hm.acyclic he hi0
  rcases info_cases hi.wf q with ⟨_, g⟩ | ⟨i, x, g1, _⟩ | ⟨g1, _⟩
  · have hpos := List.length_pos_of_ne_nil hm.vocabulary.words_ne
    have := attached_iff (I := I) (p := []) hr hf.vocabulary rfl g (by
      simp only [hi.eb, hi.ee]
      refine ⟨by omega, by omega, by omega, ?_⟩
      intro i w hw
      have := lt_of_getElem?_eq_some hw
      simp
      omega) l
    rw [this]
    simp
  · rw [hi.explicit] at g1; omega
  · have := hi.wf.total
    have := hi.explicit
    omega

/-- `NextState` answers existing states and never faults, whatever existing or nonexistent (but not
negative) state and whatever symbol it is given. -/
theorem C31_no_fault {m : Model A.C} (hm : Loaded m) {encode : Int → Str}
    (he : Encodes encode m.static.base.symbols m.static.base.oov) :
    ∃ bound, ∀ fuel, bound ≤ fuel → ∀ I, Calls encode m.static m.imp I → ∀ s sym : Int, 0 ≤ s →
      ∃ r I', nextState A encode fuel m.static I s sym = .ok (r, I') ∧ 0 ≤ r ∧ r < I'.total := by
  obtain ⟨bound, hb⟩ := enough_of_acyclic hm.acyclic
  obtain ⟨u, hu, hf, -, hr, hi0⟩ := hm.fit
  refine ⟨bound, fun fuel hfu I hI s sym hs => ?_⟩
  obtain ⟨hi, -⟩ := hI.inv hr hf rfl hm.acyclic he hi0
  obtain ⟨r, I', h1, _, _, h2⟩ := nextState_total hr hf rfl he (hb fuel hfu) hi hs sym
  exact ⟨r, I', h1, h2⟩

/-- A call of `NextState` changes the table of prefix states only by requests. -/
theorem nextState_later {encode : Int → Str} {fuel : Nat} {M : Static A.C} {I I' : Implicit} {s sym r : Int}
    (h : nextState A encode fuel M I s sym = .ok (r, I')) : Later I I' := by
  simp only [nextState] at h
  by_cases c1 : s < M.base.fst.states.length
  · rw [if_pos c1] at h
    simp only [nextFirstLetterState] at h
    cases hx : findFirst (encode sym) M.tables.firstChars M.tables.firstEnds 1 with
    | error _ => rw [hx] at h; cases h
    | ok x =>
      rw [hx, ok_bind] at h
      by_cases c2 : x.2 ≥ 0
      · rw [if_pos c2] at h
        cases hg : getState I s 1 x.1 x.2 with
        | error _ => rw [hg] at h; cases h
        | ok g => rw [hg] at h; cases h; exact .request (.refl I) hg
      · rw [if_neg c2] at h; cases h; exact .refl I
  · rw [if_neg c1] at h
    by_cases c2 : s = M.oovState ∧ sym = 32
    · rw [if_pos c2] at h; cases h; exact .refl I
    · rw [if_neg c2] at h
      cases hx : info I s with
      | error _ => rw [hx] at h; cases h
      | ok x =>
        rw [hx, ok_bind] at h
        cases x with
        | none => cases h; exact .refl I
        | some x =>
          simp only at h
          by_cases c3 : x.modelState ≥ 0
          · rw [if_pos c3] at h
            by_cases c4 : sym = 32
            · rw [if_pos c4] at h
              cases hn : nextCompleteState A fuel M x x.modelState x.prefixLength with
              | error _ => rw [hn] at h; cases h
              | ok n => rw [hn] at h; cases h; exact .refl I
            · rw [if_neg c4] at h
              cases hb : getBeginEndIndices M x x.prefixLength sym with
              | error _ => rw [hb] at h; cases h
              | ok be =>
                rw [hb, ok_bind] at h
                by_cases c5 : be.1 ≥ 0 ∧ be.2 ≥ 0
                · rw [if_pos c5] at h
                  cases hg : getState I x.modelState (x.prefixLength + 1) be.1 be.2 with
                  | error _ => rw [hg] at h; cases h
                  | ok g => rw [hg] at h; cases h; exact .request (.refl I) hg
                · rw [if_neg c5] at h; cases h; exact .refl I
          · rw [if_neg c3] at h; cases h; exact .refl I

/-- **C29** the tables of a model that has been read and used are tables in the sense of C29, and later
ones are later in its sense. -/
theorem C29_of_model {m : Model A.C} (hm : Loaded m) {encode : Int → Str} {I I' : Implicit}
    (hI : Calls encode m.static m.imp I) (hI' : Calls encode m.static I I') : Table I ∧ Later I I' := by
  have later : ∀ {J K : Implicit}, Calls encode m.static J K → Later J K := by
    intro J K h
    induction h with
    | refl => exact .refl _
    | call _ _ hn ih => exact ih.trans (nextState_later hn)
  refine ⟨?_, later hI'⟩
  obtain ⟨fuel, mc, src, _, h⟩ := hm.readWith
  simp only [readWith] at h
  cases hT : buildTables m.static.base.symbols m.static.base.oov with
  | error _ => rw [hT] at h; cases h
  | ok T =>
    rw [hT, ok_bind] at h
    cases T with
    | none => cases h
    | some T =>
      simp only [establishStates] at h
      cases hl : T.firstEnds.getLast? with
      | none => rw [hl] at h; cases h
      | some last =>
        rw [hl] at h
        simp only at h
        cases hg : getState (Implicit.new m.static.base.fst.states.length m.static.base.symbols 1 last)
            (-1) 1 (-1) (-1) with
        | error _ => rw [hg] at h; cases h
        | ok g =>
          rw [hg, ok_bind] at h
          cases hg1 : g.1 with
          | none => rw [hg1] at h; cases h
          | some o =>
            rw [hg1] at h
            simp only [ok_bind] at h
            obtain ⟨e, -, h⟩ := bind_ok.1 h
            by_cases he : e.1 = true
            · rw [if_pos he] at h
              have hm' : m.imp = g.2 := by
                have := Option.some.inj (Except.ok.inj h)
                rw [← this]
              obtain ⟨g1, g2⟩ := g
              simp only at hm' hg1
              refine ⟨_, _, _, _, Later.trans (.request (.refl _) hg) ?_⟩
              have := later hI
              rw [hm'] at this
              exact this
            · rw [if_neg he] at h; cases h

/-! ## A model meeting the hypotheses -/

/-- The automaton of the demo: a unigram state 0, the start state 1, and state 2 after the word "ab"
(label 2). -/
def demoFst : Fst Unit :=
  { start := 1
    states := [ { final := (), arcs := [⟨1, (), 0⟩, ⟨2, (), 2⟩, ⟨3, (), 0⟩] },
                { final := (), arcs := [⟨0, (), 0⟩, ⟨2, (), 2⟩] },
                { final := (), arcs := [⟨0, (), 0⟩, ⟨3, (), 0⟩] } ] }

def demoSource : NGram.Source Unit :=
  { noFile := false, fst := some demoFst, inSymbols := some demoVocab, noVocabulary := true
    vocabulary := none, canonical := fun _ => true, normalized := fun _ => true, maxOrder := fun _ => 2 }

/-- The model `Read` makes of it. -/
def demo : Model Unit :=
  { static :=
      { base := { fst := demoFst, symbols := demoVocab, oov := -1, unigram := 0, hiOrder := 2 }
        tables := { order := [0, 3, 2, 1], position := [0, 3, 2, 1], prevPrefix := [0, 0, 1, 0]
                    firstChars := [[97], [98]], firstEnds := [2, 3] }
        oovState := 3, maxCache := 5 }
    imp := { explicit := 3, total := 4, maxPrefix := 2, infos := [⟨-1, 1, -1, -1⟩], explicitBegin := 1
             explicitEnd := 3, maps := [[((-1, -1), 3)]] }
    cache := { accessed := 3, index := [0, 1, -1]
               entries := [⟨0, 1, [(), (), (), ()]⟩, ⟨1, 2, [(), (), (), ()]⟩] } }

theorem demo_word (l : Int) (w : Str) :
    IsWord demoVocab (-1) l w ↔ (l = 1 ∧ w = [98]) ∨ (l = 2 ∧ w = [97, 98]) ∨ (l = 3 ∧ w = [97]) := by
  simp only [IsWord, demoVocab, List.mem_cons, Prod.mk.injEq, List.not_mem_nil, or_false]
  constructor
  · rintro ⟨h | h | h | h, h0, _⟩
    · exact absurd h.1 h0
    · exact .inl h
    · exact .inr (.inl h)
    · exact .inr (.inr h)
  · rintro (⟨rfl, h⟩ | ⟨rfl, h⟩ | ⟨rfl, h⟩) <;> simp [h]

theorem demo_vocabulary : Vocabulary demoVocab (-1) := by
  refine ⟨demoVocab_dense, .inl rfl, ?_, 1, [98], by rw [demo_word]; simp⟩
  intro l w h
  rw [demo_word] at h
  rcases h with ⟨_, rfl⟩ | ⟨_, rfl⟩ | ⟨_, rfl⟩ <;> decide

theorem demo_closed : NGram.Closed demoFst := ⟨by decide, by decide⟩

theorem demo_acyclic : NGram.Acyclic demoFst := by
  refine ⟨fun s => if s = 0 then 0 else 1, ?_⟩
  rintro s w t ⟨st, pre, post, h1, h2, _⟩
  have hm : (⟨0, w, t⟩ : Arc Unit) ∈ st.arcs := by rw [h2]; simp
  match s, h1 with
  | 0, h1 => cases h1; simp at hm
  | 1, h1 => cases h1; simp at hm; subst hm; decide
  | 2, h1 => cases h1; simp at hm; subst hm; decide
  | n + 3, h1 => simp [demoFst] at h1

theorem demo_loaded : Loaded (A := Arith.unit) demo :=
  ⟨⟨10, 5, demoSource, by rfl⟩, demo_vocabulary, demo_closed, demo_acyclic⟩

theorem demo_encodes : Encodes (fun c => if c < 0 then [] else [c.toNat]) demoVocab (-1) := by
  intro sym d _
  by_cases h : sym < 0
  · simp only [if_pos h]
    constructor
    · intro h; cases h
    · omega
  · simp only [if_neg h, List.cons.injEq, and_true]
    omega

/-- Typing "a", "b" and a space from the start state: the places. -/
theorem demo_types : TypesAll (A := Arith.unit) demoFst 0 demoVocab (-1) (.word 1 []) [97, 98, 32]
    (.word 2 []) := by
  refine .cons (Q := .word 1 [97]) (.letter (p := []) (c := 97) ⟨3, [97], by rw [demo_word]; simp, by simp⟩) ?_
  refine .cons (Q := .word 1 [97, 98]) (.letter (p := [97]) (c := 98) ⟨2, [97, 98], by rw [demo_word]; simp, by simp⟩) ?_
  refine .cons (.complete (l := 2) (by simp) (by rw [demo_word]; simp) (.inl ⟨[], (), ?_⟩)) (.nil _)
  refine ⟨1, .here 1, ⟨_, [⟨0, (), 0⟩], [], rfl, rfl, by decide⟩, ?_⟩
  intro (ws : List Unit) (ws' : List Unit) v h1 h2 hne
  exfalso
  obtain ⟨rank, hr⟩ := demo_acyclic
  have hle : ∀ {s t : Nat} {ws : List Unit}, NGram.Walk demoFst s ws t → rank t + ws.length ≤ rank s := by
    intro s t ws h
    induction h with
    | here => simp
    | step hb _ ih =>
      have := hr _ _ _ hb
      simp only [List.length_cons]
      omega
  have := hle h1
  have := hle h2
  have : ws' = [] := List.length_eq_zero_iff.1 (by omega)
  exact hne this

/-- The model's answers: prefix states 4 and 5, then the n-gram state 2. -/
example : ((nextStates Arith.unit (fun c => if c < 0 then [] else [c.toNat]) 10 demo.static demo.imp 1
      [97]).map Prod.fst, (nextStates Arith.unit (fun c => if c < 0 then [] else [c.toNat]) 10 demo.static
      demo.imp 1 [97, 98]).map Prod.fst,
    (nextStates Arith.unit (fun c => if c < 0 then [] else [c.toNat]) 10 demo.static demo.imp 1
      [97, 98, 32]).map Prod.fst) = (.ok 4, .ok 5, .ok 2) := by rfl

end Mozolm.Word
