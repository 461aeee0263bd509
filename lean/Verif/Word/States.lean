import Verif.Word.Spec

/-! # Prefix states: invariant and lemmas for C29 -/

namespace Mozolm.Word

theorem getI_ok {α : Type} {l : List α} {i : Nat} {a : α} (h : l[i]? = some a) :
    getI l (i : Int) = .ok a := by
  simp only [getI, Int.toNat_natCast, h]
  rw [if_neg (by omega)]

theorem getI_eq {α : Type} {l : List α} {i : Int} {a : α} (h : getI l i = .ok a) :
    ∃ n : Nat, i = n ∧ l[n]? = some a := by
  simp only [getI] at h
  by_cases hi : i < 0
  · rw [if_pos hi] at h; cases h
  · rw [if_neg hi] at h
    refine ⟨i.toNat, by omega, ?_⟩
    cases hl : l[i.toNat]? with
    | none => rw [hl] at h; cases h
    | some b => rw [hl] at h; cases h; rfl

theorem setI_ok {α : Type} {l : List α} {i : Nat} (a : α) (h : i < l.length) :
    setI l (i : Int) a = .ok (l.set i a) := by
  simp only [setI, Int.toNat_natCast]
  rw [if_pos ⟨by omega, by omega⟩]

theorem setI_eq {α : Type} {l l' : List α} {i : Int} {a : α} (h : setI l i a = .ok l') :
    ∃ n : Nat, i = n ∧ n < l.length ∧ l' = l.set n a := by
  simp only [setI] at h
  by_cases hi : 0 ≤ i ∧ i < l.length
  · rw [if_pos hi] at h
    cases h
    exact ⟨i.toNat, by omega, by omega, rfl⟩
  · rw [if_neg hi] at h; cases h

theorem mapFind_append_new {m : List ((Int × Int) × Int)} {key key' : Int × Int} {v : Int}
    (h : mapFind m key = none) :
    mapFind (m ++ [(key, v)]) key' = if key' = key then some v else mapFind m key' := by
  simp only [mapFind, List.find?_append, Option.map_eq_none_iff] at *
  by_cases e : key' = key
  · subst e
    simp [h]
  · have : (key == key') = false := by simpa using fun h => e h.symm
    simp [e, this]

/-- Invariant of the table of prefix states. -/
structure Wf (I : Implicit) : Prop where
  nonneg : 0 ≤ I.explicit
  total : I.total = I.explicit + I.infos.length
  stored : ∀ (i : Nat) x, I.infos[i]? = some x → ∃ (k : Nat) (m : List ((Int × Int) × Int)), x.prefixLength = k + 1 ∧
    I.maps[k]? = some m ∧ mapFind m (x.modelState, x.beginIndex) = some (I.explicit + i)
  found : ∀ (k : Nat) m key v, I.maps[k]? = some m → mapFind m key = some v →
    ∃ (i : Nat) (x : Info), v = I.explicit + i ∧ I.infos[i]? = some x ∧ x.modelState = key.1 ∧
      x.prefixLength = k + 1 ∧ x.beginIndex = key.2
  bound : (I.maps.length : Int) ≤ max 0 I.maxPrefix

theorem Wf.new (n : Nat) (t : SymbolTable) (b e : Int) : Wf (Implicit.new n t b e) where
  nonneg := by simp [Implicit.new]
  total := by simp [Implicit.new]
  stored := by simp [Implicit.new]
  found := by simp [Implicit.new]
  bound := by simp [Implicit.new]; omega

/-- Same table up to an empty map added at the end. -/
structure Ext (I I' : Implicit) : Prop where
  explicit : I'.explicit = I.explicit
  total : I'.total = I.total
  infos : I'.infos = I.infos
  eb : I'.explicitBegin = I.explicitBegin
  ee : I'.explicitEnd = I.explicitEnd
  mp : I'.maxPrefix = I.maxPrefix
  maps : I'.maps = I.maps ∨ (I'.maps = I.maps ++ [[]] ∧ (I.maps.length : Int) < I.maxPrefix)

theorem Ext.refl (I : Implicit) : Ext I I := ⟨rfl, rfl, rfl, rfl, rfl, rfl, .inl rfl⟩

theorem Ext.wf {I I' : Implicit} (h : Ext I I') (hw : Wf I) : Wf I' := by
  obtain ⟨h1, h2, h3, _, _, h6, h7⟩ := h
  rcases h7 with h7 | ⟨h7, hlt⟩
  · refine ⟨by rw [h1]; exact hw.nonneg, by rw [h1, h2, h3]; exact hw.total, ?_, ?_, ?_⟩
    · intro i x hx
      rw [h3] at hx
      rw [h7, h1]
      exact hw.stored i x hx
    · intro k m key v hk hv
      rw [h7] at hk
      rw [h1, h3]
      exact hw.found k m key v hk hv
    · rw [h7, h6]; exact hw.bound
  · refine ⟨by rw [h1]; exact hw.nonneg, by rw [h1, h2, h3]; exact hw.total, ?_, ?_, ?_⟩
    · intro i x hx
      rw [h3] at hx
      rw [h7, h1]
      obtain ⟨k, m, e1, e2, e3⟩ := hw.stored i x hx
      refine ⟨k, m, e1, ?_, e3⟩
      rw [List.getElem?_append_left (lt_of_getElem?_eq_some e2)]
      exact e2
    · intro k m key v hk hv
      rw [h7] at hk
      rw [h1, h3]
      by_cases hkl : k < I.maps.length
      · rw [List.getElem?_append_left hkl] at hk
        exact hw.found k m key v hk hv
      · rw [List.getElem?_append_right (by omega)] at hk
        have : m = [] := by
          cases hz : k - I.maps.length with
          | zero => rw [hz] at hk; cases hk; rfl
          | succ n => rw [hz] at hk; cases hk
        subst this
        simp [mapFind] at hv
    · rw [h7, h6, List.length_append]
      simp only [List.length_cons, List.length_nil]
      push_cast
      omega

/-- What `GetPrefixIdx` does. -/
theorem getPrefixIdx_spec (I : Implicit) (k : Int) :
    (getPrefixIdx I k = (none, I) ∧ ¬ (1 ≤ k ∧ k ≤ I.maxPrefix ∧ k ≤ I.maps.length + 1)) ∨
    (∃ (n : Nat) (I' : Implicit), k = n + 1 ∧ getPrefixIdx I k = (some (n : Int), I') ∧ Ext I I' ∧
      n < I'.maps.length ∧ k ≤ I.maxPrefix ∧ k ≤ I.maps.length + 1) := by
  simp only [getPrefixIdx]
  by_cases h1 : k ≤ 0
  · rw [if_pos h1]; exact .inl ⟨rfl, by omega⟩
  · rw [if_neg h1]
    by_cases h2 : k > I.maxPrefix
    · rw [if_pos h2]; exact .inl ⟨rfl, by omega⟩
    · rw [if_neg h2]
      by_cases h3 : k - 1 > I.maps.length
      · rw [if_pos h3]; exact .inl ⟨rfl, by omega⟩
      · rw [if_neg h3]
        have hn : k - 1 = ((k - 1).toNat : Int) := by omega
        by_cases h4 : k - 1 = I.maps.length
        · rw [if_pos h4]
          refine .inr ⟨(k - 1).toNat, { I with maps := I.maps ++ [[]] }, by omega, by rw [← hn], ⟨rfl, rfl, rfl, rfl, rfl, rfl,
            .inr ⟨rfl, by omega⟩⟩, ?_, by omega, by omega⟩
          simp only [List.length_append, List.length_cons, List.length_nil]
          omega
        · rw [if_neg h4]
          exact .inr ⟨(k - 1).toNat, I, by omega, by rw [← hn], Ext.refl I, by omega, by omega, by omega⟩

theorem info_ext {I I' : Implicit} (h : Ext I I') (s : Int) : info I' s = info I s := by
  simp only [info, getImplicitIdx, h.explicit, h.total, h.infos, h.eb, h.ee]

/-- The information stored for an id of the table. -/
theorem info_stored {I : Implicit} (hw : Wf I) {i : Nat} {x : Info} (h : I.infos[i]? = some x) :
    info I (I.explicit + i) = .ok (some x) := by
  have hl := lt_of_getElem?_eq_some h
  have ht := hw.total
  simp only [info, getImplicitIdx]
  rw [if_neg (by omega), if_neg (by omega), if_neg (by omega), if_neg (by omega)]
  have : I.explicit + (i : Int) - I.explicit = (i : Int) := by omega
  simp only [this, getI_ok h, ok_bind]

/-- Answers of the accessors. -/
theorem info_cases {I : Implicit} (hw : Wf I) (s : Int) :
    (s < I.explicit ∧ info I s = .ok (some ⟨s, 0, I.explicitBegin, I.explicitEnd⟩)) ∨
    (∃ (i : Nat) (x : Info), s = I.explicit + i ∧ I.infos[i]? = some x ∧ info I s = .ok (some x)) ∨
    (I.total ≤ s ∧ info I s = .ok none) := by
  have ht := hw.total
  by_cases h1 : s < I.explicit
  · exact .inl ⟨h1, by simp only [info, if_pos h1]⟩
  · by_cases h2 : s ≥ I.total
    · refine .inr (.inr ⟨h2, ?_⟩)
      simp only [info, getImplicitIdx, if_neg h1, if_pos h2]
    · have hl : (s - I.explicit).toNat < I.infos.length := by omega
      obtain ⟨x, hx⟩ := exists_getElem?_of_lt hl
      have hs : s = I.explicit + ((s - I.explicit).toNat : Nat) := by omega
      refine .inr (.inl ⟨(s - I.explicit).toNat, x, hs, hx, ?_⟩)
      rw [hs]
      have := info_stored hw hx
      rw [← hs] at this ⊢
      exact this

/-- What `FindExistingState` does. -/
theorem findExistingState_spec {I : Implicit} (hw : Wf I) (ms k b : Int) :
    ∃ r I', findExistingState I ms k b = .ok (r, I') ∧ Ext I I' ∧
      (k ≠ 0 → (r = -1 ∧ (∀ (i : Nat) x, I.infos[i]? = some x →
            ¬ (x.modelState = ms ∧ x.prefixLength = k ∧ x.beginIndex = b))) ∨
        (∃ (i : Nat) (x : Info), r = I.explicit + i ∧ I.infos[i]? = some x ∧ x.modelState = ms ∧
          x.prefixLength = k ∧ x.beginIndex = b)) := by
  simp only [findExistingState]
  by_cases hk : k = 0
  · rw [if_pos hk]
    by_cases hm : ms < 0 ∨ ms ≥ I.explicit
    · rw [if_pos hm]; exact ⟨_, _, rfl, .refl I, fun h => absurd hk h⟩
    · rw [if_neg hm]; exact ⟨_, _, rfl, .refl I, fun h => absurd hk h⟩
  · rw [if_neg hk]
    rcases getPrefixIdx_spec I k with ⟨e, hno⟩ | ⟨n, I', rfl, e, hext, hn, h1, h2⟩
    · rw [e]
      refine ⟨-1, I, rfl, .refl I, fun _ => .inl ⟨rfl, ?_⟩⟩
      rintro i x hx ⟨e1, e2, e3⟩
      obtain ⟨j, m, g1, g2, g3⟩ := hw.stored i x hx
      have := lt_of_getElem?_eq_some g2
      have := hw.bound
      apply hno
      rw [← e2, g1]
      omega
    · rw [e]
      obtain ⟨m, hm⟩ := exists_getElem?_of_lt hn
      simp only [getI_ok hm, ok_bind]
      refine ⟨_, I', rfl, hext, fun _ => ?_⟩
      have hw' := hext.wf hw
      cases hf : mapFind m (ms, b) with
      | none =>
        refine .inl ⟨rfl, ?_⟩
        rintro i x hx ⟨e1, e2, e3⟩
        rw [← hext.infos] at hx
        obtain ⟨j, m', g1, g2, g3⟩ := hw'.stored i x hx
        have : j = n := by omega
        subst this
        rw [hm] at g2; cases g2
        rw [e1, e3, hf] at g3
        cases g3
      | some v =>
        obtain ⟨i, x, g1, g2, g3, g4, g5⟩ := hw'.found n m (ms, b) v hm hf
        refine .inr ⟨i, x, ?_, by rw [← hext.infos]; exact g2, g3, by omega, g5⟩
        rw [← hext.explicit]
        exact g1

/-- What `AddNewState` does for a key that is not in the table. -/
theorem addNewState_spec {I : Implicit} (hw : Wf I) (ms k b e : Int)
    (hnew : ∀ (i : Nat) x, I.infos[i]? = some x →
      ¬ (x.modelState = ms ∧ x.prefixLength = k ∧ x.beginIndex = b)) :
    (addNewState I ms k b e = .ok (none, I) ∧
      ¬ (1 ≤ k ∧ k ≤ I.maxPrefix ∧ k ≤ I.maps.length + 1)) ∨
    (∃ I', addNewState I ms k b e = .ok (some (I.explicit + I.infos.length), I') ∧ Wf I' ∧
      1 ≤ k ∧ k ≤ I.maxPrefix ∧ k ≤ I.maps.length + 1 ∧
      I'.explicit = I.explicit ∧ I'.infos = I.infos ++ [⟨ms, k, b, e⟩] ∧
      I'.explicitBegin = I.explicitBegin ∧ I'.explicitEnd = I.explicitEnd ∧
      I'.maxPrefix = I.maxPrefix ∧ I.maps.length ≤ I'.maps.length) := by
  simp only [addNewState]
  rcases getPrefixIdx_spec I k with ⟨e', hno⟩ | ⟨n, J, rfl, e', hext, hn, h1, h2⟩
  · rw [e']
    exact .inl ⟨rfl, hno⟩
  · rw [e']
    obtain ⟨m, hm⟩ := exists_getElem?_of_lt hn
    simp only [getI_ok hm, ok_bind, setI_ok _ hn]
    have hwJ := hext.wf hw
    have hfn : mapFind m (ms, b) = none := by
      cases hf : mapFind m (ms, b) with
      | none => rfl
      | some v =>
        obtain ⟨i, x, g1, g2, g3, g4, g5⟩ := hwJ.found n m (ms, b) v hm hf
        rw [hext.infos] at g2
        exact absurd ⟨g3, by omega, g5⟩ (hnew i x g2)
    have htot : J.total = J.explicit + J.infos.length := hwJ.total
    have hins : mapInsert m (ms, b) J.total = m ++ [((ms, b), J.total)] := by
      simp only [mapInsert, hfn]
    rw [hins]
    right
    refine ⟨{ J with
        total := J.total + 1
        infos := J.infos ++ [⟨ms, (n : Int) + 1, b, e⟩]
        maps := J.maps.set n (m ++ [((ms, b), J.total)]) }, ?_, ?_, by omega, h1, h2, hext.explicit, by simp [hext.infos], hext.eb,
      hext.ee, hext.mp, ?_⟩
    · rw [show I.explicit + (I.infos.length : Int) = J.total by rw [htot, hext.explicit, hext.infos]]
    · refine ⟨hwJ.nonneg, ?_, ?_, ?_, ?_⟩
      · simp only [List.length_append, List.length_cons, List.length_nil]
        push_cast
        omega
      · intro i x hx
        simp only at hx
        by_cases hi : i < J.infos.length
        · rw [List.getElem?_append_left hi] at hx
          obtain ⟨k', m', g1, g2, g3⟩ := hwJ.stored i x hx
          by_cases hkn : k' = n
          · subst hkn
            rw [hm] at g2; cases g2
            refine ⟨k', m ++ [((ms, b), J.total)], g1, by simp [hn], ?_⟩
            rw [mapFind_append_new hfn, if_neg]
            · exact g3
            · intro he
              rw [he, hfn] at g3
              cases g3
          · refine ⟨k', m', g1, ?_, g3⟩
            simp only
            rw [List.getElem?_set_ne (fun h => hkn h.symm)]
            exact g2
        · rw [List.getElem?_append_right (by omega)] at hx
          have hz : i - J.infos.length = 0 := by
            cases hz : i - J.infos.length with
            | zero => rfl
            | succ n => rw [hz] at hx; cases hx
          rw [hz] at hx
          cases hx
          refine ⟨n, m ++ [((ms, b), J.total)], rfl, by simp [hn], ?_⟩
          rw [mapFind_append_new hfn, if_pos rfl, htot]
          have : i = J.infos.length := by omega
          rw [this]
      · intro k' m' key v hk' hv
        simp only at hk'
        by_cases hkn : k' = n
        · subst hkn
          rw [List.getElem?_set_self hn] at hk'
          cases hk'
          rw [mapFind_append_new hfn] at hv
          by_cases he : key = (ms, b)
          · rw [if_pos he] at hv
            cases hv
            refine ⟨J.infos.length, ⟨ms, (k' : Int) + 1, b, e⟩, htot, by simp, by rw [he], rfl,
              by rw [he]⟩
          · rw [if_neg he] at hv
            obtain ⟨i, x, g1, g2, g3⟩ := hwJ.found k' m key v hm hv
            exact ⟨i, x, g1, by
              simp only
              rw [List.getElem?_append_left (lt_of_getElem?_eq_some g2)]; exact g2, g3⟩
        · rw [List.getElem?_set_ne (fun h => hkn h.symm)] at hk'
          obtain ⟨i, x, g1, g2, g3⟩ := hwJ.found k' m' key v hk' hv
          exact ⟨i, x, g1, by
            simp only
            rw [List.getElem?_append_left (lt_of_getElem?_eq_some g2)]; exact g2, g3⟩
      · simp only [List.length_set]
        exact hwJ.bound
    · simp only [List.length_set]
      rcases hext.maps with h | ⟨h, _⟩ <;> rw [h] <;> simp

/-- Growth of the table: nothing stored is ever changed. -/
structure Grows (I I' : Implicit) : Prop where
  explicit : I'.explicit = I.explicit
  infos : I.infos <+: I'.infos
  eb : I'.explicitBegin = I.explicitBegin
  ee : I'.explicitEnd = I.explicitEnd
  mp : I'.maxPrefix = I.maxPrefix
  maps : I.maps.length ≤ I'.maps.length

theorem Ext.grows {I I' : Implicit} (h : Ext I I') : Grows I I' :=
  ⟨h.explicit, by rw [h.infos]; exact List.prefix_rfl, h.eb, h.ee, h.mp, by
    rcases h.maps with h | ⟨h, _⟩ <;> rw [h] <;> simp⟩

theorem Grows.refl (I : Implicit) : Grows I I := (Ext.refl I).grows

theorem Grows.trans {I J K : Implicit} (h : Grows I J) (h' : Grows J K) : Grows I K :=
  ⟨h'.explicit.trans h.explicit, h.infos.trans h'.infos, h'.eb.trans h.eb, h'.ee.trans h.ee,
    h'.mp.trans h.mp, Nat.le_trans h.maps h'.maps⟩

theorem Grows.getElem? {I I' : Implicit} (h : Grows I I') {i : Nat} {x : Info}
    (hx : I.infos[i]? = some x) : I'.infos[i]? = some x := by
  obtain ⟨l, hl⟩ := h.infos
  rw [← hl, List.getElem?_append_left (lt_of_getElem?_eq_some hx)]
  exact hx

/-- The answer of `GetState`. -/
structure Answered (I I' : Implicit) (ms k b : Int) (s : Int) : Prop where
  wf : Wf I'
  grows : Grows I I'
  key : (k = 0 ∧ s = ms ∧ 0 ≤ ms ∧ ms < I.explicit) ∨
    (1 ≤ k ∧ ∃ (i : Nat) (x : Info), s = I.explicit + i ∧ I'.infos[i]? = some x ∧ x.modelState = ms ∧
      x.prefixLength = k ∧ x.beginIndex = b)

/-- What `GetState` does. -/
theorem getState_spec {I : Implicit} (hw : Wf I) (ms k b e : Int) :
    (∃ I', getState I ms k b e = .ok (none, I') ∧ Wf I' ∧ Grows I I' ∧
      ¬ (k = 0 ∧ 0 ≤ ms ∧ ms < I.explicit) ∧
      ¬ (1 ≤ k ∧ k ≤ I.maxPrefix ∧ k ≤ I.maps.length + 1)) ∨
    (∃ s I', getState I ms k b e = .ok (some s, I') ∧ Answered I I' ms k b s ∧
      (∀ (i : Nat) x, I'.infos[i]? = some x → I.infos[i]? = some x ∨
        (I'.infos = I.infos ++ [x] ∧ x = ⟨ms, k, b, e⟩)) ∧
      (1 ≤ k → k ≤ I.maxPrefix ∧ k ≤ I.maps.length + 1 ∧ k ≤ I'.maps.length)) := by
  simp only [getState]
  by_cases hk : k = 0
  · rw [if_pos hk]
    by_cases hm : ms < 0 ∨ ms ≥ I.explicit
    · rw [if_pos hm]; exact .inl ⟨I, rfl, hw, .refl I, by omega, by omega⟩
    · rw [if_neg hm]
      exact .inr ⟨ms, I, rfl, ⟨hw, .refl I, .inl ⟨hk, rfl, by omega, by omega⟩⟩,
        fun i x hx => .inl hx, by omega⟩
  · rw [if_neg hk]
    obtain ⟨r, J, e1, hext, hr⟩ := findExistingState_spec hw ms k b
    have hwJ := hext.wf hw
    simp only [e1, ok_bind]
    rcases hr hk with ⟨rfl, hno⟩ | ⟨i, x, rfl, hx, g1, g2, g3⟩
    · rw [if_neg (by omega)]
      rcases addNewState_spec hwJ ms k b e (by rw [hext.infos]; exact hno) with
        ⟨e2, hn⟩ | ⟨I', e2, hw', k1, k2, k3, k4, k5, k6, k7, k8, k9⟩
      · refine .inl ⟨J, e2, hwJ, hext.grows, fun h => hk h.1, ?_⟩
        rintro ⟨a1, a2, a3⟩
        exact hn ⟨a1, by rw [hext.mp]; exact a2, by have := hext.grows.maps; omega⟩
      · have hle : k ≤ I'.maps.length := by
          obtain ⟨k', m, c1, c2, c3⟩ := hw'.stored J.infos.length ⟨ms, k, b, e⟩ (by rw [k5]; simp)
          have := lt_of_getElem?_eq_some c2
          simp only at c1
          omega
        refine .inr ⟨_, I', e2, ⟨hw', hext.grows.trans ⟨k4, by rw [k5]; exact ⟨_, rfl⟩, k6, k7, k8, k9⟩,
          .inr ⟨k1, J.infos.length, ⟨ms, k, b, e⟩, by rw [hext.explicit], by rw [k5]; simp, rfl, rfl,
            rfl⟩⟩, ?_, fun _ => ⟨by rw [← hext.mp]; exact k2, ?_, hle⟩⟩
        · intro j y hy
          rw [k5] at hy
          by_cases hj : j < J.infos.length
          · rw [List.getElem?_append_left hj] at hy
            left; rw [← hext.infos]; exact hy
          · rw [List.getElem?_append_right (by omega)] at hy
            right
            have : y = ⟨ms, k, b, e⟩ := by
              cases hz : j - J.infos.length with
              | zero => rw [hz] at hy; cases hy; rfl
              | succ n => rw [hz] at hy; cases hy
            subst this
            exact ⟨by rw [k5, hext.infos], rfl⟩
        · rcases hext.maps with h | ⟨h, hlt⟩
          · rw [h] at k3; exact k3
          · -- the look-up succeeded in finding an index, so the length was in range
            rcases getPrefixIdx_spec I k with ⟨p1, p2⟩ | ⟨n, I'', p1, p2, p3, p4, p5, p6⟩
            · exfalso
              simp only [findExistingState, if_neg hk, p1] at e1
              cases e1
              have := congrArg List.length h
              simp at this
            · omega
    · have hnn := hw.nonneg
      rw [if_pos (by omega)]
      obtain ⟨k', m, c1, c2, c3⟩ := hw.stored i x hx
      have hlt := lt_of_getElem?_eq_some c2
      have hb := hw.bound
      have hg := hext.grows.maps
      refine .inr ⟨_, J, rfl, ⟨hwJ, hext.grows, .inr ⟨by omega, i, x, rfl, by
        rw [hext.infos]; exact hx, g1, g2, g3⟩⟩, ?_, fun _ => ⟨by omega, by omega, by omega⟩⟩
      intro j y hy
      left; rw [← hext.infos]; exact hy

theorem Later.wf {I I' : Implicit} (h : Later I I') (hw : Wf I) : Wf I' ∧ Grows I I' := by
  induction h with
  | refl => exact ⟨hw, .refl _⟩
  | request _ he ih =>
    obtain ⟨h1, h2⟩ := ih
    rcases getState_spec h1 _ _ _ _ with ⟨I', e, w, g, _⟩ | ⟨s, I', e, a, _⟩
    · rw [e] at he; cases he; exact ⟨w, h2.trans g⟩
    · rw [e] at he; cases he; exact ⟨a.wf, h2.trans a.grows⟩
  | lookup _ he ih =>
    obtain ⟨h1, h2⟩ := ih
    obtain ⟨r, I', e, hx, _⟩ := findExistingState_spec h1 _ _ _
    rw [e] at he; cases he
    exact ⟨hx.wf h1, h2.trans hx.grows⟩

theorem Later.trans {I J K : Implicit} (h : Later I J) (h' : Later J K) : Later I K := by
  induction h' with
  | refl => exact h
  | request _ he ih => exact .request ih he
  | lookup _ he ih => exact .lookup ih he

theorem Table.wf {I : Implicit} (h : Table I) : Wf I := by
  obtain ⟨n, t, b, e, h⟩ := h
  exact (h.wf (Wf.new n t b e)).1

/-- Keys identify ids. -/
theorem Wf.unique {I : Implicit} (hw : Wf I) {i j : Nat} {x y : Info} (hx : I.infos[i]? = some x)
    (hy : I.infos[j]? = some y) (h1 : x.modelState = y.modelState)
    (h2 : x.prefixLength = y.prefixLength) (h3 : x.beginIndex = y.beginIndex) : i = j := by
  obtain ⟨k, m, a1, a2, a3⟩ := hw.stored i x hx
  obtain ⟨k', m', b1, b2, b3⟩ := hw.stored j y hy
  have : k = k' := by omega
  subst this
  rw [a2] at b2; cases b2
  rw [h1, h3, b3] at a3
  have := Option.some.inj a3
  omega

end Mozolm.Word
