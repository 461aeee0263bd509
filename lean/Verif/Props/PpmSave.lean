import Verif.Ppm.Save
import Verif.Props.PpmNumeric

/-!
# C89: saving and reopening a PPM model

Saving a model to a file, at any points of its life and however often, whether the file can be written or not, never
changes an answer.  Reading the file back gives a model which no history of calls can tell from the saved one, also if
the cache is given another size and if a vocabulary of known characters is read; read back as a static model, it answers
every question as the saved model does.
-/

namespace Mozolm.Ppm
variable {A : Arith} {Ok : A.C → Prop}

/-- A history of calls with their answers, during which the model is saved (`WriteFst`) at any points: `written` says
whether the file could be written. -/
inductive SavedRun (encode : Int → Str) : Model A → List (Op × Answer A) → Model A → Prop
  | nil {m} : SavedRun encode m [] m
  | call {m op a m1 tr m2} : op.Valid m → step encode op m = .ok (a, m1) → SavedRun encode m1 tr m2 →
      SavedRun encode m ((op, a) :: tr) m2
  | save {m tr m2} (written : Bool) : SavedRun encode (writeFst written m).2 tr m2 → SavedRun encode m tr m2

/-- No history of calls tells the models apart: the calls that can be made, and the answers they give, are the same. -/
def Indistinguishable (m n : Model A) : Prop :=
  ∀ encode tr, (∃ m', Run encode m tr m') ↔ ∃ n', Run encode n tr n'

/-- The same for histories of questions (calls other than updates). -/
def SameAnswers (m n : Model A) : Prop :=
  ∀ encode tr, (∀ x ∈ tr, x.1.asks = true) → ((∃ m', Run encode m tr m') ↔ ∃ n', Run encode n tr n')

theorem Alike.indistinguishable {m n : Model A} (h : Alike A Ok true m n) : Indistinguishable m n := by
  intro encode tr
  constructor
  · rintro ⟨m', hr⟩
    obtain ⟨n', h1, _⟩ := Alike.run hr h (.inl rfl)
    exact ⟨n', h1⟩
  · rintro ⟨n', hr⟩
    obtain ⟨m', h1, _⟩ := Alike.run hr h.symm (.inl rfl)
    exact ⟨m', h1⟩

theorem Alike.sameAnswers {full : Bool} {m n : Model A} (h : Alike A Ok full m n) : SameAnswers m n := by
  intro encode tr ha
  constructor
  · rintro ⟨m', hr⟩
    obtain ⟨n', h1, _⟩ := Alike.run hr h (.inr ha)
    exact ⟨n', h1⟩
  · rintro ⟨n', hr⟩
    obtain ⟨m', h1, _⟩ := Alike.run hr h.symm (.inr ha)
    exact ⟨m', h1⟩

theorem SavedRun.alike {encode : Int → Str} {m m' : Model A} {tr : List (Op × Answer A)} (hr : SavedRun encode m tr m') :
    ∀ {a : Model A}, Alike A Ok true a m → (RightComm A ∨ UnigramSorted m.core.fst) →
    ∃ a', Run encode a tr a' ∧ Alike A Ok true a' m' ∧ (RightComm A ∨ UnigramSorted m'.core.fst) := by
  induction hr with
  | nil => intro a h hs; exact ⟨a, .nil, h, hs⟩
  | call hv he _ ih =>
    intro a h hs
    obtain ⟨ord, V, u, hi⟩ := h.right
    have hva := Op.valid_like h.symm.core.fst hv
    obtain ⟨a1, e1, e2⟩ := h.symm.step encode (.inl rfl) hv he
    obtain ⟨a', e3, e4, e5⟩ := ih e2.symm (hs.imp_right fun k => step_unigram hi encode hv he k)
    exact ⟨a', .cons hva e1 e3, e4, e5⟩
  | @save m tr m2 b _ ih =>
    intro a h hs
    obtain ⟨ord, V, u, hi⟩ := h.right
    refine ih (h.trans (Alike.write hi hs b)) (.inr ?_)
    have e : (writeFst b m).2.core.fst = arcSort m.core.fst := by unfold writeFst; cases b <;> rfl
    rw [e]
    exact arcSort_unigram _

/-- C89: the answers of a model that is saved now and then are those of a model that never is, and no later call tells
them apart. -/
theorem C89_saves {o : Options A.D} {m0 m : Model A} {encode : Int → Str} {tr : List (Op × Answer A)}
    (L : CountLaws A Ok (initParameters A o).beta) (hi : Initial A Ok o m0)
    (hs : RightComm A ∨ UnigramSorted m0.core.fst) (hr : SavedRun encode m0 tr m) :
    ∃ m', Run encode m0 tr m' ∧ Indistinguishable m m' := by
  obtain ⟨ord, V, u, h⟩ := hi.inv L
  obtain ⟨a', h1, h2, _⟩ := hr.alike (a := m0) (Ok := Ok) ⟨⟨ord, V, u, h⟩, ⟨ord, V, u, h⟩, .refl _, rfl, rfl, rfl, fun _ => rfl⟩ hs
  exact ⟨a', h1, h2.symm.indistinguishable⟩

/-- Saving never fails other than by reporting that the file cannot be written, and then there is no file. -/
theorem C89_report (m : Model A) (b : Bool) : (writeFst b m).1.1 = b ∧ ((writeFst b m).1.2.isSome ↔ b = true) := by
  cases b <;> simp [writeFst]

/-- The options a file may be read back with: those of the model, except that the size of the cache may differ and
that the model may be static. -/
structure SameOptions {D : Type} (o o' : Options D) : Prop where
  maxOrder : o'.maxOrder = o.maxOrder
  alpha : o'.alpha = o.alpha
  beta : o'.beta = o.beta

/-- C89: reading back the file of a saved model succeeds, whatever the history and the earlier saves.  With an updatable
model as before, no later call tells the two apart; with a static one, no question does. -/
theorem C89_reopen {o o' : Options A.D} {m0 m : Model A} {encode : Int → Str} {tr : List (Op × Answer A)}
    (L : CountLaws A Ok (initParameters A o).beta) (hi : Initial A Ok o m0)
    (hs : RightComm A ∨ UnigramSorted m0.core.fst) (hr : SavedRun encode m0 tr m) {file : Fst A.C × SymbolTable}
    {written : Bool} {m1 : Model A} (hw : writeFst written m = ((true, some file), m1)) (ho : SameOptions o o')
    (vocab : Option (List (List Str))) (hv : vocab ≠ some [])
    (hk : ∀ c ∈ (vocab.getD []).flatten, c ∈ m.symbols.map Prod.snd) :
    ∃ n, read A o' (.fstFile (some file)) (vocab.map some) = pure n ∧ Initial A Ok o' n ∧ n.symbols = m.symbols ∧
      n.core.fst.start = m.core.fst.start ∧ (o'.static = o.static → Indistinguishable m n) ∧ SameAnswers m n := by
  obtain ⟨ord, V, u, h⟩ := hi.loaded L
  obtain ⟨a, h1, h2, h3⟩ := hr.alike (a := m0) (Ok := Ok)
    ⟨⟨ord, V, u, h.inv⟩, ⟨ord, V, u, h.inv⟩, .refl _, rfl, rfl, rfl, fun _ => rfl⟩ hs
  obtain ⟨ord', ha⟩ := h.run h1
  have hf : file = (arcSort m.core.fst, m.symbols) := by
    unfold writeFst at hw
    cases written
    · simp at hw
    · simp only [if_true, Prod.mk.injEq, Option.some.injEq, true_and] at hw
      exact hw.1.symm
  subst hf
  have hp : initParameters A o' = { initParameters A o with
      maxCache := (initParameters A o').maxCache, static := o'.static } := by
    unfold initParameters
    simp only [ho.maxOrder, ho.alpha, ho.beta]
  obtain ⟨n, k1, k2, _, k4⟩ := reopen ha h2 hp h3 vocab hv hk
  refine ⟨n, k1, k2, k4.symbols, k4.core.fst.start.symm, fun e => ?_, k4.sameAnswers⟩
  rw [e] at k4
  simp only [BEq.rfl] at k4
  exact k4.indistinguishable

/-! ## The condition on the order of the arcs -/

/-- In exact arithmetic sums do not depend on the order, so that nothing is asked of the model. -/
theorem C89_exact : RightComm Arith.xr := by
  have key : ∀ a b c : XR, XR.negLogSum (XR.negLogSum a b) c = XR.negLogSum (XR.negLogSum a c) b := by
    intro a b c
    have hp : ∀ x y : ℝ, 0 < Real.exp (-x) + Real.exp (-y) := fun x y => by positivity
    cases a <;> cases b <;> cases c <;> simp only [XR.negLogSum]
    · congr 2
      rw [neg_neg, neg_neg, Real.exp_log (hp _ _), Real.exp_log (hp _ _)]; ring_nf
    all_goals first | rfl | (congr 3; ring_nf)
  exact key

theorem loops_ascending (u V k : Nat) : ((loops A u V k).map Arc.label).Pairwise (· ≤ ·) := by
  unfold loops
  rw [List.map_map, List.pairwise_map]
  refine List.pairwise_lt_range.imp ?_
  intro i j hij
  simp only [Function.comp]
  omega

/-- A model read from a vocabulary meets it, with any rounding. -/
theorem C89_vocabulary {o : Options A.D} {m : Model A} (L : CountLaws A Ok (initParameters A o).beta) {ls : List (List Str)}
    (hls : ∃ c ∈ ls.flatten, c ∉ epsilonTable.map Prod.snd) (h : read A o .none (some (some ls)) = pure m) :
    UnigramSorted m.core.fst := by
  obtain ⟨m', ord, V, k1, _, _, _, _, k6, _⟩ := read_vocab_ok (Ok := Ok) L hls
  have : m = m' := Res.pure_inj (h.symm.trans k1)
  subst this
  intro u st hb hst
  rw [k6] at hb hst
  have : u = 1 := by
    simp only [backoff, freshFst, List.getElem?_cons_zero] at hb
    simpa using hb.symm
  subst this
  simp only [freshFst, List.getElem?_cons_succ, List.getElem?_cons_zero, Option.some.injEq] at hst
  subst hst
  exact loops_ascending _ _ _

/-- So does a model read from a file with sorted arcs, such as those saving makes, also if characters are added. -/
theorem C89_sorted_file {o : Options A.D} {m : Model A} (L : CountLaws A Ok (initParameters A o).beta) {f : Fst A.C}
    {t : SymbolTable} {ord : Nat → Nat} {mo : Int} {V u : Nat} (wf : WF A Ok f ord mo V u) (ht : Dense t V) {src : Source A.C}
    (hsrc : src = .fstFile (some (f, t)) ∨ src = .text (some (f, t))) {vocab : Option (List (List Str))}
    (hv : vocab ≠ some []) (h : read A o src (vocab.map some) = pure m) (hs : UnigramSorted f) :
    UnigramSorted m.core.fst := by
  obtain ⟨m', V', k1, k2, k3, _, _, k6, _⟩ := read_fst_ok (Ok := Ok) L wf ht hsrc vocab hv
  have : m = m' := Res.pure_inj (h.symm.trans k1)
  subst this
  intro u' st' hb hst'
  have hu : u' = u := by
    rw [k2.wf.start] at hb; injection hb with hb; exact hb.symm
  subst hu
  obtain ⟨st, hst, ok⟩ := wf.exists_state wf.u_lt
  rw [k6.unigram, hst] at hst'
  simp only [Option.map_some, Option.some.injEq] at hst'
  subst hst'
  have h1 := hs _ st wf.start hst
  rw [List.map_append, List.pairwise_append]
  refine ⟨h1, loops_ascending _ _ _, ?_⟩
  intro x hx y hy
  rw [List.mem_map] at hx hy
  obtain ⟨a, ha, rfl⟩ := hx
  obtain ⟨b, hb', rfl⟩ := hy
  have hx0 := (ok.unigram rfl).2.2.1 a ha
  have h3 := (ok.arcs a ha hx0)
  unfold loops at hb'
  rw [List.mem_map] at hb'
  obtain ⟨i, _, rfl⟩ := hb'
  have := h3.2.2.2.2
  simp only
  omega

/-- and what saving makes is such a file. -/
theorem C89_saved_sorted {m m1 : Model A} {b : Bool} {file : Fst A.C × SymbolTable}
    (h : writeFst b m = ((true, some file), m1)) : UnigramSorted file.1 := by
  unfold writeFst at h
  cases b
  · simp at h
  · simp only [if_true, Prod.mk.injEq, Option.some.injEq, true_and] at h
    rw [← h.1]
    exact arcSort_unigram _

end Mozolm.Ppm
