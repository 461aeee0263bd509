import Verif.NGram.Model

/-! # A character model whose labels are renamed -/

namespace Mozolm.NGram

theorem find?_perm {α : Type} {l l' : List α} (h : l.Perm l') {p : α → Bool} (hu : ∀ a ∈ l, ∀ b ∈ l, p a → p b → a = b) :
    l.find? p = l'.find? p := by
  cases h1 : l.find? p with
  | none =>
    rw [List.find?_eq_none] at h1
    exact (List.find?_eq_none.2 fun x hx => h1 x (h.mem_iff.2 hx)).symm
  | some a =>
    cases h2 : l'.find? p with
    | none =>
      rw [List.find?_eq_none] at h2
      exact absurd (List.find?_some h1) (h2 a (h.mem_iff.1 (List.mem_of_find?_eq_some h1)))
    | some b =>
      rw [hu a (List.mem_of_find?_eq_some h1) b (h.mem_iff.2 (List.mem_of_find?_eq_some h2)) (List.find?_some h1) (List.find?_some h2)]

theorem find?_congr_mem {α : Type} {l : List α} {p q : α → Bool} (h : ∀ a ∈ l, p a = q a) : l.find? p = l.find? q := by
  induction l with
  | nil => rfl
  | cons x l ih =>
    simp only [List.find?_cons, h x (by simp)]
    rw [ih fun a ha => h a (by simp [ha])]

/-- The labels `K` renamed by `φ`, one to one, the special labels fixed. -/
structure Renames (φ : Int → Int) (K : Int → Prop) : Prop where
  zero : φ 0 = 0
  none : φ (-1) = -1
  isLabel : K 0
  inj : ∀ a b, K a → K b → φ a = φ b → a = b
  real : ∀ a, K a → φ a ≠ -1

variable {C : Type}

/-- `g` is `f` with its labels renamed, the arcs of a state in any order. -/
structure Renamed (φ : Int → Int) (K : Int → Prop) (f g : Fst C) : Prop where
  start : g.start = f.start
  size : g.states.length = f.states.length
  state : ∀ (i : Nat) (st : FState C), f.states[i]? = some st → ∃ st', g.states[i]? = some st' ∧ st'.final = st.final ∧
    st'.arcs.Perm (st.arcs.map fun a => { a with label := φ a.label }) ∧ (∀ a ∈ st.arcs, ∀ b ∈ st.arcs, a.label = b.label → a = b) ∧
    ∀ a ∈ st.arcs, K a.label

variable {φ : Int → Int} {K : Int → Prop} {A : Arith} {f g : Fst A.C}

theorem Renamed.find (hr : Renames φ K) {st st' : FState C} (hp : st'.arcs.Perm (st.arcs.map fun a => { a with label := φ a.label }))
    (hu : ∀ a ∈ st.arcs, ∀ b ∈ st.arcs, a.label = b.label → a = b) (hk : ∀ a ∈ st.arcs, K a.label) {l : Int} (hl : K l)
    (q : Nat → Bool) :
    st'.arcs.find? (fun a => a.label == φ l && q a.next) =
      (st.arcs.find? (fun a => a.label == l && q a.next)).map fun a => { a with label := φ a.label } := by
  rw [← find?_perm hp.symm (by
    intro a ha b hb pa pb
    obtain ⟨x, hx, rfl⟩ := List.mem_map.1 ha
    obtain ⟨y, hy, rfl⟩ := List.mem_map.1 hb
    simp only [Bool.and_eq_true, beq_iff_eq] at pa pb
    rw [hu x hx y hy (hr.inj _ _ (hk x hx) (hk y hy) (by rw [pa.1, pb.1]))]), List.find?_map]
  congr 1
  apply find?_congr_mem
  intro a ha
  simp only [Function.comp]
  congr 1
  by_cases h : a.label = l
  · rw [h]; simp
  · have : φ a.label ≠ φ l := fun e => h (hr.inj _ _ (hk a ha) hl e)
    rw [beq_eq_false_iff_ne.2 h, beq_eq_false_iff_ne.2 this]

/-- The states of the two automata with the same number. -/
theorem Renamed.states (h : Renamed φ K f g) (s : Int) :
    (f.state? s = none ∧ g.state? s = none) ∨ ∃ st st', f.state? s = some st ∧ g.state? s = some st' ∧ st'.final = st.final ∧
      st'.arcs.Perm (st.arcs.map fun a => { a with label := φ a.label }) ∧ (∀ a ∈ st.arcs, ∀ b ∈ st.arcs, a.label = b.label → a = b) ∧
      ∀ a ∈ st.arcs, K a.label := by
  simp only [Fst.state?]
  by_cases hs : s < 0
  · rw [if_pos hs, if_pos hs]; exact .inl ⟨rfl, rfl⟩
  · rw [if_neg hs, if_neg hs]
    cases hf : f.states[s.toNat]? with
    | none =>
      rw [List.getElem?_eq_none_iff] at hf
      exact .inl ⟨rfl, List.getElem?_eq_none (by rw [h.size]; exact hf)⟩
    | some st =>
      obtain ⟨st', h1, h2⟩ := h.state _ _ hf
      exact .inr ⟨st, st', rfl, h1, h2⟩

theorem Renamed.matched (hr : Renames φ K) {st st' : FState C} (hp : st'.arcs.Perm (st.arcs.map fun a => { a with label := φ a.label }))
    (hu : ∀ a ∈ st.arcs, ∀ b ∈ st.arcs, a.label = b.label → a = b) (hk : ∀ a ∈ st.arcs, K a.label) {l : Int} (hl : K l ∨ l = -1)
    (one : C) (s : Int) : Fst.matchFirst one st' s (φ l) = Fst.matchFirst one st s l := by
  have key : ∀ x, K x → st'.arcs.find? (fun a => a.label == φ x) =
      (st.arcs.find? (fun a => a.label == x)).map fun a => { a with label := φ a.label } := by
    intro x hx
    have := Renamed.find hr hp hu hk hx (fun _ => true)
    simpa using this
  simp only [Fst.matchFirst]
  by_cases h0 : l = 0
  · subst h0; rw [hr.zero]; rfl
  · by_cases hn : l = -1
    · subst hn
      have := key 0 hr.isLabel
      rw [hr.zero] at this
      simp only [hr.none, if_neg h0, if_true, this]
      cases st.arcs.find? (fun a => a.label == 0) <;> rfl
    · have hkl : K l := hl.resolve_right hn
      have h1 : φ l ≠ 0 := fun e => h0 (hr.inj _ _ hkl hr.isLabel (by rw [e, hr.zero]))
      rw [if_neg h1, if_neg h0]
      simp only [if_neg hn, if_neg (hr.real l hkl), key l hkl]
      cases st.arcs.find? (fun a => a.label == l) <;> rfl

theorem Renamed.backoff (hr : Renames φ K) (h : Renamed φ K f g) (s : Int) : getBackoff A g s = getBackoff A f s := by
  simp only [getBackoff]
  by_cases hs : s = -1
  · rw [if_pos hs, if_pos hs]
  · rw [if_neg hs, if_neg hs]
    rcases h.states s with ⟨h1, h2⟩ | ⟨st, st', h1, h2, _, hp, hu, hk⟩
    · rw [h1, h2]
    · rw [h1, h2]
      have := Renamed.find hr hp hu hk hr.isLabel (fun n => (n : Int) != s)
      rw [hr.zero] at this
      simp only [this]
      cases st.arcs.find? (fun a => a.label == 0 && (a.next : Int) != s) <;> rfl

theorem Renamed.nextModelState (hr : Renames φ K) (h : Renamed φ K f g) {l : Int} (hl : K l ∨ l = -1) (u : Int) (n : Nat) (s : Int) :
    NGram.nextModelState A g u (φ l) n s = NGram.nextModelState A f u l n s := by
  induction n generalizing s with
  | zero => rfl
  | succ n ih =>
    simp only [NGram.nextModelState]
    by_cases hs : s = -1
    · rw [if_pos hs, if_pos hs]
    · rw [if_neg hs, if_neg hs]
      rcases h.states s with ⟨h1, h2⟩ | ⟨st, st', h1, h2, _, hp, hu, hk⟩
      · rw [h1, h2]
      · rw [h1, h2]
        simp only [Renamed.matched hr hp hu hk hl]
        cases Fst.matchFirst A.one st s l with
        | some a => rfl
        | none => simp only [h.backoff hr s, ih]

theorem Renamed.finalLoop (hr : Renames φ K) (h : Renamed φ K f g) (n : Nat) (s : Int) (c : A.C) :
    NGram.finalLoop A g n s c = NGram.finalLoop A f n s c := by
  induction n generalizing s c with
  | zero => rfl
  | succ n ih =>
    simp only [NGram.finalLoop, h.backoff hr s]
    cases getBackoff A f s with
    | error e => rfl
    | ok bo =>
      simp only [bind, Except.bind]
      split
      · rfl
      · rcases h.states bo.1 with ⟨h1, h2⟩ | ⟨st, st', h1, h2, hf, _⟩
        · rw [h1, h2]
        · rw [h1, h2]
          simp only [hf, ih]

theorem Renamed.finalCost (hr : Renames φ K) (h : Renamed φ K f g) (n : Nat) (s : Int) :
    finalCostInState A g n s = finalCostInState A f n s := by
  simp only [finalCostInState]
  rcases h.states s with ⟨h1, h2⟩ | ⟨st, st', h1, h2, hf, _⟩
  · rw [h1, h2]
  · rw [h1, h2]
    simp only [hf, h.finalLoop hr]

theorem Renamed.labelLoop (hr : Renames φ K) (h : Renamed φ K f g) {l : Int} (hl : K l ∨ l = -1) (n : Nat) (s : Int) (c : A.C) :
    NGram.labelLoop A g (φ l) n s c = NGram.labelLoop A f l n s c := by
  induction n generalizing s c with
  | zero => rfl
  | succ n ih =>
    simp only [NGram.labelLoop]
    by_cases hs : s < 0
    · rw [if_pos hs, if_pos hs]
    · rw [if_neg hs, if_neg hs]
      rcases h.states s with ⟨h1, h2⟩ | ⟨st, st', h1, h2, _, hp, hu, hk⟩
      · rw [h1, h2]
      · rw [h1, h2]
        simp only [Renamed.matched hr hp hu hk hl]
        cases Fst.matchFirst A.one st s l with
        | some a => rfl
        | none => simp only [h.backoff hr s, ih]

theorem Renamed.labelCost (hr : Renames φ K) (h : Renamed φ K f g) {l : Int} (hl : K l ∨ l = -1) (n : Nat) (s : Int) :
    labelCostInState A g n s (φ l) = labelCostInState A f n s l := by
  simp only [labelCostInState]
  have h0 : φ l = 0 ↔ l = 0 := by
    constructor
    · intro e
      rcases hl with hl | rfl
      · exact hr.inj _ _ hl hr.isLabel (by rw [e, hr.zero])
      · rw [hr.none] at e; exact e
    · rintro rfl; exact hr.zero
  by_cases h : l = 0
  · rw [if_pos h, if_pos (h0.2 h), finalCost hr (by assumption)]
  · rw [if_neg h, if_neg fun e => h (h0.1 e), labelLoop hr (by assumption) hl]

theorem Renamed.costs (hr : Renames φ K) (h : Renamed φ K f g) (n : Nat) (s : Int) (ls : List Int) (hl : ∀ l ∈ ls, K l) :
    costsOf A g n s (ls.map φ) = costsOf A f n s ls := by
  induction ls with
  | nil => rfl
  | cons l ls ih =>
    simp only [List.map_cons, costsOf]
    rw [h.labelCost hr (.inl (hl l (by simp))), ih fun x hx => hl x (by simp [hx])]

/-- The same for symbol tables that keep every entry. -/
structure RenamedModel (φ : Int → Int) (K : Int → Prop) (m m' : Model A.C) : Prop where
  fst : Renamed φ K m.fst m'.fst
  symbols : m'.symbols = m.symbols.map fun e => (φ e.1, e.2)
  labels : ∀ e ∈ m.symbols, K e.1
  oov : m'.oov = φ m.oov
  oovLabel : K m.oov ∨ m.oov = -1
  unigram : m'.unigram = m.unigram

theorem findLabel_renamed (hr : Renames φ K) (t : SymbolTable) (s : Str) :
    SymbolTable.findLabel (t.map fun e => (φ e.1, e.2)) s = φ (t.findLabel s) := by
  simp only [SymbolTable.findLabel, List.find?_map]
  have : ((fun e : Int × Str => e.2 == s) ∘ fun e : Int × Str => (φ e.1, e.2)) = fun e => e.2 == s := rfl
  rw [this]
  cases t.find? (fun e => e.2 == s) with
  | none => exact hr.none.symm
  | some e => rfl

theorem findLabel_label {t : SymbolTable} (hk : ∀ e ∈ t, K e.1) (s : Str) : K (t.findLabel s) ∨ t.findLabel s = -1 := by
  simp only [SymbolTable.findLabel]
  cases h : t.find? (fun e => e.2 == s) with
  | none => exact .inr rfl
  | some e => exact .inl (hk e (List.mem_of_find?_eq_some h))

theorem findSymbol_renamed (hr : Renames φ K) {t : SymbolTable} (hk : ∀ e ∈ t, K e.1) {l : Int} (hl : K l) :
    SymbolTable.findSymbol (t.map fun e => (φ e.1, e.2)) (φ l) = t.findSymbol l := by
  simp only [SymbolTable.findSymbol, List.find?_map]
  rw [find?_congr_mem (l := t) (p := (fun e : Int × Str => e.1 == φ l) ∘ fun e : Int × Str => (φ e.1, e.2)) (q := fun e => e.1 == l) fun e he => by
    simp only [Function.comp]
    by_cases h : e.1 = l
    · rw [h]; simp
    · rw [beq_eq_false_iff_ne.2 h, beq_eq_false_iff_ne.2 fun x => h (hr.inj _ _ (hk e he) hl x)]]
  cases t.find? (fun e => e.1 == l) <;> rfl

variable {m m' : Model A.C} {encode : Int → Str}

theorem RenamedModel.symLabel (hr : Renames φ K) (h : RenamedModel φ K m m') (c : Int) :
    NGram.symLabel (A := A) encode m' c = φ (NGram.symLabel (A := A) encode m c) ∧
      (K (NGram.symLabel (A := A) encode m c) ∨ NGram.symLabel (A := A) encode m c = -1) := by
  simp only [NGram.symLabel]
  by_cases hc : c = 0
  · rw [if_pos hc, if_pos hc, hc, hr.zero]; exact ⟨rfl, .inl hr.isLabel⟩
  · rw [if_neg hc, if_neg hc, h.symbols, findLabel_renamed hr, h.oov]
    rcases findLabel_label h.labels (encode c) with hl | hl
    · rw [if_neg (hr.real _ hl)]
      by_cases hn : m.symbols.findLabel (encode c) = -1
      · rw [hn] at hl; exact absurd hr.none (hr.real _ hl)
      · rw [if_neg hn]; exact ⟨rfl, .inl hl⟩
    · rw [hl, hr.none, if_pos rfl, if_pos rfl]; exact ⟨rfl, h.oovLabel⟩

theorem RenamedModel.current (h : RenamedModel φ K m m') (s : Int) : checkCurrentState (A := A) m' s = checkCurrentState (A := A) m s := by
  simp only [checkCurrentState, h.unigram, h.fst.start]

theorem RenamedModel.nextState (hr : Renames φ K) (h : RenamedModel φ K m m') (n : Nat) (s c : Int) :
    NGram.nextState (A := A) encode n m' s c = NGram.nextState (A := A) encode n m s c := by
  obtain ⟨h1, h2⟩ := h.symLabel (encode := encode) hr c
  simp only [NGram.nextState, h1, h.unigram, h.current, h.fst.nextModelState hr h2]

theorem RenamedModel.symLMScore (hr : Renames φ K) (h : RenamedModel φ K m m') (n : Nat) (s c : Int) :
    NGram.symLMScore (A := A) encode n m' s c = NGram.symLMScore (A := A) encode n m s c := by
  obtain ⟨h1, h2⟩ := h.symLabel (encode := encode) hr c
  simp only [NGram.symLMScore, h1, h.fst.labelCost hr h2]

theorem RenamedModel.extract (hr : Renames φ K) (h : RenamedModel φ K m m') (n : Nat) (s : Int) :
    NGram.extractLMScores (A := A) n m' s = NGram.extractLMScores (A := A) n m s := by
  have hlab : ∀ l ∈ m.symbols.tail.map Prod.fst, K l := by
    intro l hl
    obtain ⟨e, he, rfl⟩ := List.mem_map.1 hl
    exact h.labels e (List.mem_of_mem_tail he)
  have ht : m'.symbols.tail.map Prod.fst = (m.symbols.tail.map Prod.fst).map φ := by
    rw [h.symbols]
    cases m.symbols with
    | nil => rfl
    | cons a l => simp only [List.map_cons, List.tail_cons, List.map_map]; rfl
  have hsym : (m'.symbols.tail.map Prod.fst).map m'.symbols.findSymbol = (m.symbols.tail.map Prod.fst).map m.symbols.findSymbol := by
    rw [ht, List.map_map]
    apply List.map_congr_left
    intro l hl
    simp only [Function.comp, h.symbols, findSymbol_renamed hr h.labels (hlab l hl)]
  have hcost : costsOf A m'.fst n (checkCurrentState (A := A) m s) (0 :: m'.symbols.tail.map Prod.fst) =
      costsOf A m.fst n (checkCurrentState (A := A) m s) (0 :: m.symbols.tail.map Prod.fst) := by
    rw [ht]
    have := h.fst.costs hr n (checkCurrentState (A := A) m s) (0 :: m.symbols.tail.map Prod.fst) (by
      intro l hl
      rcases List.mem_cons.1 hl with rfl | hl
      · exact hr.isLabel
      · exact hlab l hl)
    rw [List.map_cons, hr.zero] at this
    exact this
  simp only [NGram.extractLMScores, h.current, hcost, hsym]

end Mozolm.NGram
