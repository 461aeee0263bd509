import Verif.Props.WordCache

/-!
# The answer of the word model is determined by the place its state stands for
-/

namespace Mozolm.Word
variable {A : Arith}

/-- The two tables say the same of the two states, and these are of the same kind. -/
def SameInfo {C : Type} (M : Static C) (I1 : Implicit) (s1 : Int) (I2 : Implicit) (s2 : Int) : Prop :=
  0 ≤ s1 ∧ 0 ≤ s2 ∧ info I1 s1 = info I2 s2 ∧
    (s1 < M.base.fst.states.length ↔ s2 < M.base.fst.states.length) ∧
    ∀ x, info I1 s1 = .ok (some x) → (x.modelState = s1 ↔ x.modelState = s2)

/-- A table says of its states what it said before it grew. -/
theorem SameInfo.grows {C : Type} (M : Static C) {I I' : Implicit} (hw : Wf I) (hw' : Wf I') (hg : Grows I I') {s : Int}
    (h0 : 0 ≤ s) (h1 : s < I.total) : SameInfo M I s I' s := by
  refine ⟨h0, h0, ?_, Iff.rfl, fun _ _ => Iff.rfl⟩
  rcases info_cases hw s with ⟨a, b⟩ | ⟨i, x, a, b, c⟩ | ⟨a, _⟩
  · simp only [info, hg.explicit, if_pos a, hg.eb, hg.ee]
  · have := info_stored hw' (i := i) (x := x) (by
      obtain ⟨t, ht⟩ := hg.infos
      rw [← ht, List.getElem?_append_left (lt_of_getElem?_eq_some b)]
      exact b)
    rw [hg.explicit, ← a] at this
    rw [c, this]
  · omega

/-- What the table says of states standing for the same place: the same, and they are of the same kind. -/
theorem info_place {m : Model A.C} (hm : Loaded m) {I1 I2 : Implicit}
    (h1 : Inv m.static (sortedWords m.static.base.symbols m.static.base.oov) I1)
    (h2 : Inv m.static (sortedWords m.static.base.symbols m.static.base.oov) I2) {s1 s2 : Int} {P : Place}
    (g1 : Stands m.static I1 s1 P) (g2 : Stands m.static I2 s2 P) :
    SameInfo m.static I1 s1 I2 s2 := by
  unfold SameInfo
  obtain ⟨u, hu, hf, -, hr, -⟩ := hm.fit
  have hv := hf.vocabulary
  cases P with
  | unknown =>
    have e1 : s1 = m.static.oovState := g1
    have e2 : s2 = m.static.oovState := g2
    have k1 := info_stored h1.wf h1.oov
    have k2 := info_stored h2.wf h2.oov
    rw [h1.explicit, ← hf.oovState] at k1
    rw [h2.explicit, ← hf.oovState] at k2
    simp only [Int.natCast_zero, Int.add_zero] at k1 k2
    have := hf.oovState
    rw [e1, e2, k1, k2]
    exact ⟨by omega, by omega, rfl, Iff.rfl, fun _ _ => Iff.rfl⟩
  | word q p =>
    cases p with
    | nil =>
      obtain ⟨e1, hq⟩ := g1
      obtain ⟨e2, _⟩ := g2
      subst e1
      subst e2
      refine ⟨by omega, by omega, ?_, Iff.rfl, fun _ _ => Iff.rfl⟩
      simp only [info, h1.explicit, h2.explicit, if_pos (show (q : Int) < m.static.base.fst.states.length by omega),
        h1.eb, h2.eb, h1.ee, h2.ee]
    | cons c p =>
      obtain ⟨i1, b1, e1, a1, a2, a3, hq⟩ := range_of_stands hr hv rfl h1 (by simp) g1
      obtain ⟨i2, b2, e2, c1, c2, c3, _⟩ := range_of_stands hr hv rfl h2 (by simp) g2
      obtain ⟨rfl, rfl⟩ := a3.unique c3
      have k1 := info_stored h1.wf a2
      have k2 := info_stored h2.wf c2
      have hx1 := h1.explicit
      have hx2 := h2.explicit
      rw [a1, c1, k1, k2]
      refine ⟨by omega, by omega, rfl, ⟨fun h => by omega, fun h => by omega⟩, ?_⟩
      intro x hx
      simp only [Except.ok.injEq, Option.some.injEq] at hx
      subst hx
      simp only
      constructor <;> intro h <;> omega

theorem pureExtract_same {m : Model A.C} {I1 I2 : Implicit} {s1 s2 : Int} (hsi : SameInfo m.static I1 s1 I2 s2)
    (fuel : Nat) (V : Int → List A.C) (resp : LMScores A.D) :
    pureExtract A fuel V m.static I1 s1 resp = pureExtract A fuel V m.static I2 s2 resp := by
  obtain ⟨a1, a2, a3, a4, a5⟩ := hsi
  have c1 : NGram.checkCurrentState m.static.base s1 = s1 := by
    unfold NGram.checkCurrentState; rw [if_neg (by omega)]
  have c2 : NGram.checkCurrentState m.static.base s2 = s2 := by
    unfold NGram.checkCurrentState; rw [if_neg (by omega)]
  have hce : getNextCharEnds m.static I1 s1 = getNextCharEnds m.static I2 s2 := by
    simp only [getNextCharEnds, a3, a4]
  simp only [pureExtract, c1, c2, hce]
  cases getNextCharEnds m.static I2 s2 with
  | error f => rfl
  | ok ce =>
    simp only [ok_bind]
    split
    · rfl
    · rw [a3] at a5 ⊢
      cases hx : info I2 s2 with
      | error f => rfl
      | ok x =>
        simp only [ok_bind]
        cases x with
        | none => rfl
        | some x =>
          have hmod := a5 x hx
          have hraw : pureRaw A fuel V m.static s1 x.modelState x.beginIndex ce.1 ce.2 =
              pureRaw A fuel V m.static s2 x.modelState x.beginIndex ce.1 ce.2 := by
            simp only [pureRaw, hmod]
          simp only [hraw]

/-- States of which the tables say the same, after any two histories, are answered for alike. -/
theorem extract_same {m : Model A.C} (hm : Usable m) {fuel : Nat} (hfu : Enough m.static.base.fst fuel)
    {I1 I2 : Implicit} (h1 : Inv m.static (sortedWords m.static.base.symbols m.static.base.oov) I1)
    (h2 : Inv m.static (sortedWords m.static.base.symbols m.static.base.oov) I2) {s1 s2 : Int}
    (hsi : SameInfo m.static I1 s1 I2 s2) {c1 c2 : Cache A.C}
    (k1 : CacheInv m.static c1) (k2 : CacheInv m.static c2) (resp : LMScores A.D) :
    ∃ resp' c1' c2', extractLMScores A fuel ⟨m.static, I1, c1⟩ s1 resp = .ok (true, resp', c1') ∧
      extractLMScores A fuel ⟨m.static, I2, c2⟩ s2 resp = .ok (true, resp', c2') ∧
      resp'.symbols.length + resp.probs.length = resp.symbols.length + resp'.probs.length := by
  obtain ⟨u, hu, hf, hB, hr, hi0⟩ := hm.toLoaded.fit
  have hS := hm.toLoaded.sound hm.labels
  obtain ⟨hmax, -⟩ := hm.toLoaded.cache hm.labels hm.hiOrder
  obtain ⟨V, hV⟩ := Serves.exists hS hm.acyclic
  have a1 := hsi.1
  have a2 := hsi.2.1
  obtain ⟨r, e1, et, el⟩ := pureExtract_total hr hf rfl hfu V h1 (s := s1) (by omega) resp
  have e2 := e1
  rw [pureExtract_same hsi] at e2
  obtain ⟨c1', f1, -⟩ := extract_pure (M := m.static) hS hmax hfu (V := V) hV k1 e1
    (fun x hx hb => h1.model_state (checkCurrentState_nonneg hf (by omega)) hx hb)
  obtain ⟨c2', f2, -⟩ := extract_pure (M := m.static) hS hmax hfu (V := V) hV k2 e2
    (fun x hx hb => h2.model_state (checkCurrentState_nonneg hf (by omega)) hx hb)
  rw [et] at f1 f2
  exact ⟨r.2, c1', c2', f1, f2, el⟩

/-- The same for `SymLMScore`. -/
theorem score_same {m : Model A.C} (hm : Usable m) {fuel : Nat} (hfu : Enough m.static.base.fst fuel)
    {I1 I2 : Implicit} (h1 : Inv m.static (sortedWords m.static.base.symbols m.static.base.oov) I1)
    (h2 : Inv m.static (sortedWords m.static.base.symbols m.static.base.oov) I2) {s1 s2 : Int}
    (hsi : SameInfo m.static I1 s1 I2 s2) {c1 c2 : Cache A.C}
    (k1 : CacheInv m.static c1) (k2 : CacheInv m.static c2) (sym : Int) :
    ∃ x c1' c2', symLMScore A fuel ⟨m.static, I1, c1⟩ s1 sym = .ok (x, c1') ∧
      symLMScore A fuel ⟨m.static, I2, c2⟩ s2 sym = .ok (x, c2') := by
  obtain ⟨r, c1', c2', e1, e2, el⟩ := extract_same hm hfu h1 h2 hsi k1 k2 (noScores A)
  simp only [noScores, List.length_nil] at el
  obtain ⟨x, hx⟩ := findScore_total A sym r.symbols r.probs (by omega)
  exact ⟨x, c1', c2', by simp only [symLMScore, e1, ok_bind, if_true, hx],
    by simp only [symLMScore, e2, ok_bind, if_true, hx]⟩

/-- States standing for the same place, of the same model after any two histories, are answered for
alike. -/
theorem extract_place {m : Model A.C} (hm : Usable m) {fuel : Nat} (hfu : Enough m.static.base.fst fuel)
    {I1 I2 : Implicit} (h1 : Inv m.static (sortedWords m.static.base.symbols m.static.base.oov) I1)
    (h2 : Inv m.static (sortedWords m.static.base.symbols m.static.base.oov) I2) {s1 s2 : Int} {P : Place}
    (g1 : Stands m.static I1 s1 P) (g2 : Stands m.static I2 s2 P) {c1 c2 : Cache A.C}
    (k1 : CacheInv m.static c1) (k2 : CacheInv m.static c2) (resp : LMScores A.D) :
    ∃ resp' c1' c2', extractLMScores A fuel ⟨m.static, I1, c1⟩ s1 resp = .ok (true, resp', c1') ∧
      extractLMScores A fuel ⟨m.static, I2, c2⟩ s2 resp = .ok (true, resp', c2') ∧
      resp'.symbols.length + resp.probs.length = resp.symbols.length + resp'.probs.length :=
  extract_same hm hfu h1 h2 (info_place hm.toLoaded h1 h2 g1 g2) k1 k2 resp

/-- The same for `SymLMScore`. -/
theorem score_place {m : Model A.C} (hm : Usable m) {fuel : Nat} (hfu : Enough m.static.base.fst fuel)
    {I1 I2 : Implicit} (h1 : Inv m.static (sortedWords m.static.base.symbols m.static.base.oov) I1)
    (h2 : Inv m.static (sortedWords m.static.base.symbols m.static.base.oov) I2) {s1 s2 : Int} {P : Place}
    (g1 : Stands m.static I1 s1 P) (g2 : Stands m.static I2 s2 P) {c1 c2 : Cache A.C}
    (k1 : CacheInv m.static c1) (k2 : CacheInv m.static c2) (sym : Int) :
    ∃ x c1' c2', symLMScore A fuel ⟨m.static, I1, c1⟩ s1 sym = .ok (x, c1') ∧
      symLMScore A fuel ⟨m.static, I2, c2⟩ s2 sym = .ok (x, c2') :=
  score_same hm hfu h1 h2 (info_place hm.toLoaded h1 h2 g1 g2) k1 k2 sym

end Mozolm.Word
