import Verif.Props.WordScores

/-!
# C65: the absent state -1 in the word model

`ExtractLMScores` and `SymLMScore` take -1 for the unigram state; `NextState` does not, and a letter typed
from -1 leads to a state that cannot be scored.
-/

namespace Mozolm.Word

variable {A : Arith}

/-- **C65** (scores) the scores of the state -1 are those of the unigram state. -/
theorem C65_scores {m : Model A.C} (hm : Usable m) {I : Implicit} {c : Cache A.C} (fuel : Nat) :
    (∀ resp : LMScores A.D, extractLMScores A fuel ⟨m.static, I, c⟩ (-1) resp =
      extractLMScores A fuel ⟨m.static, I, c⟩ m.static.base.unigram resp) ∧
    ∀ sym, symLMScore A fuel ⟨m.static, I, c⟩ (-1) sym = symLMScore A fuel ⟨m.static, I, c⟩ m.static.base.unigram sym := by
  refine ⟨fun resp => C32_no_state hm fuel resp, fun sym => ?_⟩
  simp only [symLMScore, C32_no_state hm fuel]

/-- **C65** (next state) after any history, typing a first letter of some word from the state -1 gives a
state of its own, and scoring that state is undefined behaviour (an index of -1), whatever is in the
cache. -/
theorem C65_next_state {m : Model A.C} (hm : Usable m) {encode : Int → Str}
    (he : Encodes encode m.static.base.symbols m.static.base.oov) :
    ∃ bound, ∀ fuel, bound ≤ fuel → ∀ I c, Uses encode fuel m.static m.imp m.cache I c →
      ∀ ch : Nat, Starts m.static.base.symbols m.static.base.oov [ch] →
      ∃ r I', nextState A encode fuel m.static I (-1) ch = .ok (r, I') ∧
        (m.static.base.fst.states.length : Int) ≤ r ∧ ∀ fuel' c' resp,
          extractLMScores A fuel' ⟨m.static, I', c'⟩ r resp = .error .ub := by
  obtain ⟨bound, hb⟩ := enough_of_acyclic hm.acyclic
  obtain ⟨u, hu, hf, hB, hr, hi0⟩ := hm.toLoaded.fit
  obtain ⟨hmax, hc0⟩ := hm.toLoaded.cache hm.labels hm.hiOrder
  refine ⟨bound, fun fuel hfu I c h ch hch => ?_⟩
  obtain ⟨hI, -, hc⟩ := h.inv hm he (hb fuel hfu) hi0 hc0
  have henc : encode ch = [ch] := (he ch ch hch).2 rfl
  obtain ⟨w, hw, hpw⟩ := (starts_iff hf.vocabulary rfl _).1 hch
  rcases Ready.findFirst_ok hr [ch] with ⟨c1, b, e, h1, h2, h3⟩ | ⟨h1, -⟩
  · cases h1
    have hb1 := h2.1
    have hbe := h2.2.1
    have hlen : (1 : Int) ≤ I.maxPrefix := by
      have := hI.mp w hw
      have : 0 < w.length := by
        cases w with
        | nil => simp at hpw
        | cons => simp
      omega
    have hneg : (-1 : Int) < m.static.base.fst.states.length := by omega
    rcases getState_spec hI.wf (-1) 1 b e with ⟨I', e1, _, _, _, e5⟩ | ⟨s, I', e1, e2, e3, e4⟩
    · exact absurd ⟨Int.le_refl 1, hlen, by omega⟩ e5
    · rcases e2.key with ⟨h, _⟩ | ⟨_, i, x, a1, a2, a3, a4, a5⟩
      · omega
      · have hx : x = ⟨-1, 1, b, e⟩ := by
          rcases e3 i x a2 with hi | ⟨_, hx⟩
          · rcases hI.good i x hi with rfl | ⟨h, _⟩
            · simp only at a5; omega
            · omega
          · exact hx
        subst hx
        refine ⟨s, I', ?_, ?_, ?_⟩
        · simp only [nextState, if_pos hneg, nextFirstLetterState, henc, h3, ok_bind]
          rw [if_pos (by omega), e1]
          rfl
        · rw [a1, hI.explicit]; omega
        · intro fuel' c' resp
          have hinfo : info I' s = .ok (some ⟨-1, 1, b, e⟩) := by
            rw [a1, ← e2.grows.explicit]
            exact info_stored e2.wf a2
          obtain ⟨pre, l, rest, post, chars, ends, -, -, -, -, -, k1, k2⟩ :=
            charEndsImplicit_ok (x := ⟨-1, 1, b, e⟩) (p := [ch]) hr rfl h2
          have hs1 : s ≠ -1 := by rw [a1, hI.explicit]; omega
          have hs2 : ¬ (s < m.static.base.fst.states.length) := by rw [a1, hI.explicit]; omega
          have hends : ends ≠ [] := by
            have := (k2.ne_nil (by simp)).2
            intro h; rw [h] at this; simp at this
          simp only [extractLMScores, NGram.checkCurrentState, if_neg hs1, getNextCharEnds, if_neg hs2, hinfo,
            ok_bind, if_neg (show ¬ (b < 0) by omega), k1]
          cases ends with
          | nil => exact absurd rfl hends
          | cons e0 es =>
            simp only [scoresAt, if_neg (show ¬ (b < 1) by omega), ensureCacheIndex, ensureWith, getI]
            rfl
  · exact absurd hpw (h1 w hw ch rfl)

/-- **C65** the claim that -1 stands for the unigram state in all functions is false. -/
theorem C65_uniform_false : ¬ (∀ (m : Model Unit), Usable (A := Arith.unit) m → ∀ (encode : Int → Str),
    Encodes encode m.static.base.symbols m.static.base.oov → ∃ bound, ∀ fuel, bound ≤ fuel → ∀ sym,
      nextState Arith.unit encode fuel m.static m.imp (-1) sym =
        nextState Arith.unit encode fuel m.static m.imp m.static.base.unigram sym) := by
  intro h
  have he : Encodes (fun c => if c < 0 then [] else [c.toNat]) demo.static.base.symbols demo.static.base.oov :=
    demo_encodes
  obtain ⟨b1, h1⟩ := h demo demo_usable _ he
  obtain ⟨b2, h2⟩ := C65_next_state demo_usable he
  obtain ⟨b3, h3⟩ := C33_transparent demo_usable he
  have hst : Starts demo.static.base.symbols demo.static.base.oov [97] :=
    ⟨3, [97], (demo_word _ _).2 (by simp), by simp⟩
  obtain ⟨r, I', e1, e2, e3⟩ := h2 (b1 + b2 + b3) (by omega) demo.imp demo.cache (.refl _ _) 97 hst
  have e4 := h1 (b1 + b2 + b3) (by omega) 97
  have e1' := e1
  rw [show ((97 : Nat) : Int) = 97 from rfl, e4] at e1'
  have hU : Uses (A := Arith.unit) (fun c => if c < 0 then [] else [c.toNat]) (b1 + b2 + b3) demo.static demo.imp
      demo.cache I' demo.cache := .next (.refl _ _) (by decide) e1'
  obtain ⟨resp', c', g1, -⟩ := h3 (b1 + b2 + b3) (by omega) I' demo.cache hU r
    (by have : (0 : Int) ≤ demo.static.base.fst.states.length := by omega
        omega) (noScores Arith.unit)
  have g1' := e3 (b1 + b2 + b3) demo.cache (noScores Arith.unit)
  rw [g1'] at g1
  cases g1

end Mozolm.Word
