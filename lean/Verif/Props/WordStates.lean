import Verif.Word.States

/-!
# C29: prefix states of the word model

For every history of requests and look-ups on a table of prefix states.
-/

namespace Mozolm.Word

/-- **C29** (meaning) the id answered for a prefix of positive length is not an n-gram state, and it
stands for what was asked: model state, prefix length and first word. -/
theorem C29_meaning {I I' : Implicit} (ht : Table I) {ms k b e s : Int} (hk : k ≠ 0)
    (h : getState I ms k b e = .ok (some s, I')) :
    I.explicit ≤ s ∧ ∃ x, info I' s = .ok (some x) ∧ x.modelState = ms ∧ x.prefixLength = k ∧
      x.beginIndex = b := by
  rcases getState_spec ht.wf ms k b e with ⟨J, e', _⟩ | ⟨s', J, e', ha, _⟩
  · rw [e'] at h; cases h
  · rw [e'] at h; cases h
    rcases ha.key with ⟨h0, _⟩ | ⟨_, i, x, rfl, hx, h1⟩
    · exact absurd h0 hk
    · have h2 := info_stored ha.wf hx
      rw [ha.grows.explicit] at h2
      exact ⟨by omega, x, h2, h1⟩

/-- **C29** (word-initial requests) with prefix length 0 the n-gram state itself is answered. -/
theorem C29_zero {I I' : Implicit} (ht : Table I) {ms b e s : Int}
    (h : getState I ms 0 b e = .ok (some s, I')) : s = ms ∧ 0 ≤ ms ∧ ms < I.explicit := by
  rcases getState_spec ht.wf ms 0 b e with ⟨J, e', _⟩ | ⟨s', J, e', ha, _⟩
  · rw [e'] at h; cases h
  · rw [e'] at h; cases h
    rcases ha.key with ⟨_, h1⟩ | ⟨h0, _⟩
    · exact h1
    · omega

/-- **C29** (stability) whatever an id stands for, it stands for it after any further use. -/
theorem C29_stable {I I' : Implicit} (ht : Table I) {s : Int} {x : Info}
    (h : info I s = .ok (some x)) (hl : Later I I') : info I' s = .ok (some x) := by
  have hw := ht.wf
  obtain ⟨hw', hg⟩ := hl.wf hw
  rcases info_cases hw s with ⟨h1, h2⟩ | ⟨i, y, rfl, h1, h2⟩ | ⟨_, h2⟩
  · rw [h2] at h; cases h
    rcases info_cases hw' s with ⟨_, g2⟩ | ⟨i, y, rfl, _⟩ | ⟨g1, _⟩
    · rw [g2, hg.eb, hg.ee]
    · rw [hg.explicit] at h1; omega
    · have := hw'.total; rw [hg.explicit] at this; omega
  · rw [h2] at h; cases h
    have := info_stored hw' (hg.getElem? h1)
    rw [hg.explicit] at this
    exact this
  · rw [h2] at h; cases h

/-- **C29** (same key, same id) once a request was answered with `s`, every later request for the same
model state, prefix length and first word is answered, with `s`, whatever its end index. -/
theorem C29_same_key {I J K : Implicit} (ht : Table I) {ms k b e s : Int}
    (h : getState I ms k b e = .ok (some s, J)) (hl : Later J K) (e' : Int) :
    ∃ K', getState K ms k b e' = .ok (some s, K') := by
  rcases getState_spec ht.wf ms k b e with ⟨J', g, _⟩ | ⟨s', J', g, ha, _⟩
  · rw [g] at h; cases h
  · rw [g] at h; cases h
    obtain ⟨hwK, hgK⟩ := hl.wf ha.wf
    rcases ha.key with ⟨rfl, rfl, h1, h2⟩ | ⟨hk, i, x, rfl, hx, h1, h2, h3⟩
    · refine ⟨K, ?_⟩
      have := (ha.grows.trans hgK).explicit
      simp only [getState, if_pos]
      rw [if_neg (by omega)]
    · have hxK := hgK.getElem? hx
      have hne : k ≠ 0 := by omega
      obtain ⟨r, L, q1, q2, q3⟩ := findExistingState_spec hwK ms k b
      rcases q3 hne with ⟨_, hno⟩ | ⟨j, y, rfl, hy, a1, a2, a3⟩
      · exact absurd ⟨h1, h2, h3⟩ (hno i x hxK)
      · have : i = j := hwK.unique hxK hy (by rw [h1, a1]) (by rw [h2, a2]) (by rw [h3, a3])
        subst this
        refine ⟨L, ?_⟩
        have := hwK.nonneg
        simp only [getState, if_neg hne, q1, ok_bind]
        rw [if_pos (by omega), (ha.grows.trans hgK).explicit]

/-- **C29** (distinct keys, distinct ids) two requests in one history that are answered with the same id
asked for the same model state and prefix length, and for the same first word unless the prefix is
empty. -/
theorem C29_distinct {I J K L : Implicit} (ht : Table I) {ms k b e ms' k' b' e' s : Int}
    (h : getState I ms k b e = .ok (some s, J)) (hl : Later J K)
    (h' : getState K ms' k' b' e' = .ok (some s, L)) :
    ms = ms' ∧ k = k' ∧ (k ≠ 0 → b = b') := by
  rcases getState_spec ht.wf ms k b e with ⟨J', g, _⟩ | ⟨s', J', g, ha, _⟩
  · rw [g] at h; cases h
  rw [g] at h; cases h
  obtain ⟨hwK, hgK⟩ := hl.wf ha.wf
  rcases getState_spec hwK ms' k' b' e' with ⟨J', g', _⟩ | ⟨s', J', g', ha', _⟩
  · rw [g'] at h'; cases h'
  rw [g'] at h'; cases h'
  have hx := (ha.grows.trans hgK).explicit
  rcases ha.key with ⟨rfl, rfl, h1, h2⟩ | ⟨hk, i, x, hs, hx1, h1, h2, h3⟩
  · rcases ha'.key with ⟨rfl, rfl, _⟩ | ⟨hk, i, x, hs, _⟩
    · exact ⟨rfl, rfl, fun h => absurd rfl h⟩
    · omega
  · rcases ha'.key with ⟨rfl, rfl, _⟩ | ⟨hk', j, y, hs', hy, a1, a2, a3⟩
    · omega
    · have hxL := (hgK.trans ha'.grows).getElem? hx1
      have : i = j := by omega
      subst this
      rw [hxL] at hy; cases hy
      exact ⟨by rw [← h1, a1], by rw [← h2, a2], fun _ => by rw [← h3, a3]⟩

/-- **C29** (what is answered) a request never faults; with a prefix of positive length it is answered
exactly when the length is at most that of the longest symbol and at most one more than the longest
length asked for before. -/
theorem C29_answered {I : Implicit} (ht : Table I) (ms k b e : Int) :
    ∃ r I', getState I ms k b e = .ok (r, I') ∧
      (r.isSome ↔ (k = 0 ∧ 0 ≤ ms ∧ ms < I.explicit) ∨
        (1 ≤ k ∧ k ≤ I.maxPrefix ∧ k ≤ I.maps.length + 1)) := by
  rcases getState_spec ht.wf ms k b e with ⟨J, g, _, _, h1, h2⟩ | ⟨s, J, g, ha, _, h1⟩
  · exact ⟨none, J, g, by simp only [Option.isSome_none]; constructor
                          · intro h; cases h
                          · rintro (h | h)
                            · exact absurd h h1
                            · exact absurd h h2⟩
  · refine ⟨some s, J, g, ?_⟩
    simp only [Option.isSome_some, true_iff]
    rcases ha.key with ⟨h0, _, h2, h3⟩ | ⟨hk, _⟩
    · exact .inl ⟨h0, h2, h3⟩
    · exact .inr ⟨hk, (h1 hk).1, (h1 hk).2.1⟩

/-- A history: model with 2 n-gram states and longest symbol of length 2.  The request for prefix length
2 is refused before one for length 1, then accepted; the ids are 2 and 3, and asking again for the first
key answers 2. -/
example :
    let I := Implicit.new 2 [(0, [60]), (1, [97, 98])] 1 1
    Table I ∧ (getState I 0 2 1 1).map Prod.fst = .ok none ∧
    (do let a ← getState I 0 1 1 1
        let b ← getState a.2 0 2 1 1
        let c ← getState b.2 0 1 1 7
        .ok [a.1, b.1, c.1]) = Except.ok (ε := Fault) [some 2, some 3, some 2] :=
  ⟨⟨2, _, 1, 1, .refl _⟩, by rfl, by rfl⟩

end Mozolm.Word
