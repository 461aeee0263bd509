import Verif.Props.WordCache

/-!
# C64: a sound word model loads

For every automaton (closed, acyclic backoff, labels in the symbol table), every vocabulary as in
`Vocabulary` and every configured cache size: once the n-gram reader accepts the files, so does the word
model, and what it gives can be used.
-/

namespace Mozolm.Word

variable {A : Arith}

/-- **C64** if `NGramFstModel::Read` gives a model with a sound automaton and vocabulary, then `Read`
succeeds without fault, keeps that automaton and table, and starts at the start state of the automaton. -/
theorem C64_loads {src : NGram.Source A.C} {b : NGram.Model A.C} (hread : NGram.read A src = .ok (some b))
    (hv : Vocabulary b.symbols b.oov) (hc : NGram.Closed b.fst) (ha : NGram.Acyclic b.fst)
    (hl : InTable b.fst b.symbols) (hh : 0 ≤ b.hiOrder) (maxCache : Int) :
    ∃ bound, ∀ fuel, bound ≤ fuel → ∃ m, read A fuel maxCache src = .ok (some m) ∧ Usable m ∧
      m.static.base = b ∧ startState m = b.fst.start ∧
      m.static.maxCache = if maxCache > b.hiOrder then maxCache else 2000 := by
  obtain ⟨bound, hb⟩ := enough_of_acyclic ha
  refine ⟨bound, fun fuel hfu => ?_⟩
  obtain ⟨T, h1, h2⟩ := buildTables_spec hv.dense hv.isUnknown
  obtain ⟨I, i1, -⟩ := establishStates_ok hv h2
  have hS : Sound ({ base := b, tables := T, oovState := (b.fst.states.length : Int), maxCache := if maxCache > b.hiOrder then maxCache else 2000 } : Static A.C) := by
    refine ⟨hc, ?_, ?_⟩
    · rw [h2.order]
      split <;> simp
    · intro st hst a ha h0
      exact h2.position_ok hv.dense hv.isUnknown h0 (hl st hst a ha)
  have hmax : 1 ≤ (if maxCache > b.hiOrder then maxCache else 2000) := by split <;> omega
  obtain ⟨c', k, e1, e2, e3⟩ := ensureCacheIndex_ok hS hmax (hb fuel hfu) (s := b.fst.start) hc.1
    (CacheInv.empty _)
  have hrw : readWith A fuel maxCache b = .ok (some { static := { base := b, tables := T, oovState := (b.fst.states.length : Int), maxCache := if maxCache > b.hiOrder then maxCache else 2000 }, imp := I, cache := c' }) := by
    simp only [readWith, h1, ok_bind, i1]
    rw [e1, ok_bind]
    rfl
  have hr : read A fuel maxCache src = .ok (some { static := { base := b, tables := T, oovState := (b.fst.states.length : Int), maxCache := if maxCache > b.hiOrder then maxCache else 2000 }, imp := I, cache := c' }) := by
    simp only [read, hread, ok_bind, hrw]
  exact ⟨_, hr, { read := ⟨fuel, maxCache, src, hr⟩, vocabulary := hv, closed := hc, acyclic := ha, labels := hl, hiOrder := hh }, rfl, rfl, rfl⟩

/-- The demo files load. -/
example : ∃ bound, ∀ fuel, bound ≤ fuel → ∃ m, read Arith.unit fuel 5 demoSource = .ok (some m) ∧
    Usable (A := Arith.unit) m ∧ m.static.base = demo.static.base ∧ startState m = 1 ∧ m.static.maxCache = 5 :=
  C64_loads (A := Arith.unit) (b := demo.static.base) (by rfl) demo_vocabulary demo_closed demo_acyclic
    demo_usable.labels (by decide) 5

end Mozolm.Word
