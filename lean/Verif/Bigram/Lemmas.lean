import Verif.Bigram.ReadLemmas

/-! # Bigram: updates -/

namespace Mozolm.Bigram

theorem sum_set {l : List Int} {j : Nat} {c x : Int} (h : l[j]? = some c) :
    (l.set j x).sum = l.sum + (x - c) := by
  induction l generalizing j with
  | nil => simp at h
  | cons a l ih =>
    cases j with
    | zero =>
      simp only [List.getElem?_cons_zero, Option.some.injEq] at h
      subst h; simp; omega
    | succ j =>
      simp only [List.getElem?_cons_succ] at h
      simp [ih h]; omega

theorem WF.index' {m : Model} (h : WF m) (s c : Int) :
    nextState m s c = match position m.utf8 c with | some j => (j : Int) | none => -1 := h.index c

theorem position_lt {utf8 : List Int} {c : Int} {j : Nat} (h : position utf8 c = some j) :
    utf8[j]? = some c := by
  unfold position at h
  induction utf8 generalizing j with
  | nil => simp at h
  | cons a l ih =>
    rw [List.idxOf?_cons] at h
    split at h
    · next ha =>
      simp only [beq_iff_eq] at ha
      cases h; simp [ha]
    · cases hx : l.idxOf? c with
      | none => rw [hx] at h; cases h
      | some k =>
        rw [hx] at h; cases h
        simpa using ih hx

theorem position_of_get {utf8 : List Int} (hs : utf8.Pairwise (· < ·)) {c : Int} {j : Nat}
    (h : utf8[j]? = some c) : position utf8 c = some j := by
  unfold position
  induction utf8 generalizing j with
  | nil => simp at h
  | cons a l ih =>
    rw [List.pairwise_cons] at hs
    rw [List.idxOf?_cons]
    cases j with
    | zero =>
      simp only [List.getElem?_cons_zero, Option.some.injEq] at h
      simp [h]
    | succ j =>
      simp only [List.getElem?_cons_succ] at h
      have hm := List.mem_of_getElem? h
      have := hs.1 c hm
      rw [if_neg (by simp only [beq_iff_eq]; omega), ih hs.2 h]; rfl

theorem position_none {utf8 : List Int} {c : Int} : position utf8 c = none ↔ c ∉ utf8 :=
  List.idxOf?_eq_none_iff

theorem WF.count_some {m : Model} (h : WF m) {i j : Nat} (hi : i < m.utf8.length)
    (hj : j < m.utf8.length) : ∃ c, m.count i j = some c ∧ 1 ≤ c ∧ c ≤ maxInt64 := by
  obtain ⟨row, hr⟩ := exists_getElem?_of_lt (l := m.counts) (i := i) (by rw [h.rowsLen]; exact hi)
  have hm := List.mem_of_getElem? hr
  obtain ⟨c, hc⟩ := exists_getElem?_of_lt (l := row) (i := j) (by rw [h.rowLen row hm]; exact hj)
  exact ⟨c, by simp [Model.count, hr, hc], h.pos row hm c (List.mem_of_getElem? hc)⟩

theorem WF.count_range {m : Model} (h : WF m) {i j : Nat} {c : Int} (hc : m.count i j = some c) :
    i < m.utf8.length ∧ j < m.utf8.length ∧ 1 ≤ c ∧ c ≤ maxInt64 := by
  unfold Model.count at hc
  cases hr : m.counts[i]? with
  | none => rw [hr] at hc; cases hc
  | some row =>
    rw [hr] at hc
    have hc : row[j]? = some c := hc
    have hm := List.mem_of_getElem? hr
    have h1 := lt_of_getElem?_eq_some hr
    have h2 := lt_of_getElem?_eq_some hc
    rw [h.rowsLen] at h1
    rw [h.rowLen row hm] at h2
    exact ⟨h1, h2, h.pos row hm c (List.mem_of_getElem? hc)⟩

/-- `bump` succeeds exactly within 64 bits, and then adds `n` at `(i, j)` only. -/
theorem bump_spec {m : Model} (h : WF m) {i j : Nat} (hi : i < m.utf8.length)
    (hj : j < m.utf8.length) {n : Int} (hn : 0 < n) {c : Int} (hc : m.count i j = some c) :
    (maxInt64 < c + n → bump m i j n = .error .ub) ∧
    (c + n ≤ maxInt64 → ∃ m', bump m i j n = .ok m' ∧ WF m' ∧ m'.utf8 = m.utf8 ∧
      m'.vocab = m.vocab ∧ ∀ a b, m'.count a b =
        (m.count a b).map fun x => x + if (a, b) = (i, j) then n else 0) := by
  obtain ⟨row, hr⟩ := exists_getElem?_of_lt (l := m.counts) (i := i) (by rw [h.rowsLen]; exact hi)
  have hm := List.mem_of_getElem? hr
  have hrl := h.rowLen row hm
  have hns := h.sum i row hr
  have hcj : row[j]? = some c := by simpa [Model.count, hr] using hc
  have hil : i < m.counts.length := lt_of_getElem?_eq_some hr
  have hin : i < m.norm.length := lt_of_getElem?_eq_some hns
  unfold bump
  rw [hns, hr]
  simp only [hcj]
  refine ⟨fun hgt => by rw [if_neg (by omega)], fun hle => ?_⟩
  rw [if_pos hle]
  refine ⟨_, rfl, ?_, rfl, rfl, ?_⟩
  · refine ⟨h.ne, h.sorted, h.nonneg, by simpa using h.normLen, by simpa using h.rowsLen, ?_, ?_, ?_,
      h.index⟩
    · intro r hr'
      rcases List.mem_or_eq_of_mem_set hr' with h' | rfl
      · exact h.rowLen r h'
      · simpa using hrl
    · intro r hr' x hx
      rcases List.mem_or_eq_of_mem_set hr' with h' | rfl
      · exact h.pos r h' x hx
      · rcases List.mem_or_eq_of_mem_set hx with h' | rfl
        · exact h.pos row hm x h'
        · have := h.pos row hm c (List.mem_of_getElem? hcj); omega
    · intro a r har
      simp only [List.getElem?_set] at har ⊢
      by_cases ha : i = a
      · subst ha
        rw [if_pos rfl, if_pos hil] at har
        rw [if_pos rfl, if_pos hin]
        simp only [Option.some.injEq] at har
        rw [← har, sum_set hcj]
        congr 1; omega
      · rw [if_neg ha] at har ⊢
        exact h.sum a r har
  · intro a b
    simp only [Model.count, List.getElem?_set]
    by_cases ha : i = a
    · subst ha
      rw [if_pos rfl, if_pos hil, hr]
      simp only [Option.bind_some, List.getElem?_set]
      by_cases hb : j = b
      · subst hb
        rw [if_pos rfl, if_pos (lt_of_getElem?_eq_some hcj), hcj]; simp
      · rw [if_neg hb]
        have : ¬ b = j := fun e => hb e.symm
        simp [this]
    · rw [if_neg ha]
      have : ¬ a = i := fun e => ha e.symm
      simp [this]

theorem updateLoop_spec {cs : List Int} : ∀ {m : Model} {i : Nat} {n : Int}, WF m →
    i < m.utf8.length → 0 < n →
    (∀ m', updateLoop m n i cs = .ok m' → WF m' ∧ m'.utf8 = m.utf8 ∧ m'.vocab = m.vocab ∧
      ∀ a b, m'.count a b =
        (m.count a b).map fun x => x + n * ((moves m.utf8 i cs).count (a, b) : Nat)) ∧
    ((∀ a b x, m.count a b = some x →
        x + n * ((moves m.utf8 i cs).count (a, b) : Nat) ≤ maxInt64) →
      ∃ m', updateLoop m n i cs = .ok m') := by
  induction cs with
  | nil =>
    intro m i n h hi hn
    refine ⟨?_, fun _ => ⟨m, rfl⟩⟩
    intro m' he
    simp only [updateLoop, Except.ok.injEq] at he
    subst he
    refine ⟨h, rfl, rfl, fun a b => ?_⟩
    simp [moves]
  | cons c cs ih =>
    intro m i n h hi hn
    have hidx := h.index' i c
    cases hp : position m.utf8 c with
    | none =>
      rw [hp] at hidx
      simp only at hidx
      have h0 : 0 < m.utf8.length := by
        have := h.ne; cases hx : m.utf8 with
        | nil => exact absurd hx this
        | cons => simp
      simp only [updateLoop, hidx, moves, hp]
      rw [if_pos (by omega)]
      exact ih h h0 hn
    | some j =>
      rw [hp] at hidx
      simp only at hidx
      have hj : j < m.utf8.length := lt_of_getElem?_eq_some (position_lt hp)
      obtain ⟨x, hx, x1, x2⟩ := h.count_some hi hj
      obtain ⟨b1, b2⟩ := bump_spec h hi hj hn hx
      simp only [updateLoop, hidx, moves, hp]
      rw [if_neg (by omega), Int.toNat_natCast]
      rcases Int.lt_or_le maxInt64 (x + n) with hgt | hle
      · rw [b1 hgt]
        refine ⟨fun m' he => (by cases he), fun hall => ?_⟩
        have := hall i j x hx
        simp only [List.count_cons_self, Int.natCast_add] at this
        have h1 : 0 ≤ n * ((moves m.utf8 j cs).count (i, j) : Int) :=
          Int.mul_nonneg (by omega) (by omega)
        have h2 : n * (((moves m.utf8 j cs).count (i, j) : Int) + ((1 : Nat) : Int)) =
            n * ((moves m.utf8 j cs).count (i, j) : Int) + n := by
          rw [Int.mul_add]; simp
        omega
      · obtain ⟨m1, e1, w1, u1, v1, k1⟩ := b2 hle
        rw [e1]
        simp only [ok_bind]
        obtain ⟨i1, i2⟩ := ih (m := m1) (i := j) w1 (by rw [u1]; exact hj) hn
        have hcount : ∀ a b, (((i, j) :: moves m.utf8 j cs).count (a, b) : Int) =
            (moves m.utf8 j cs).count (a, b) + if (a, b) = (i, j) then 1 else 0 := by
          intro a b
          rw [List.count_cons]
          by_cases hab : (a, b) = (i, j)
          · rw [hab]; simp
          · have : ((i, j) == (a, b)) = false := by
              rw [beq_eq_false_iff_ne]; exact fun e => hab e.symm
            rw [this, if_neg hab]; simp
        have halg : ∀ a b (x : Int), x + (if (a, b) = (i, j) then n else 0) +
              n * ((moves m.utf8 j cs).count (a, b) : Nat) =
            x + n * (((i, j) :: moves m.utf8 j cs).count (a, b) : Nat) := by
          intro a b x
          rw [hcount, Int.mul_add]
          split <;> simp <;> omega
        refine ⟨fun m' he => ?_, fun hall => i2 fun a b x hx' => ?_⟩
        · obtain ⟨w', u', v', k'⟩ := i1 m' he
          refine ⟨w', u'.trans u1, v'.trans v1, fun a b => ?_⟩
          rw [k' a b, k1 a b, u1]
          cases m.count a b with
          | none => rfl
          | some y => simp only [Option.map_some]; rw [halg]
        · rw [k1 a b] at hx'
          cases hy : m.count a b with
          | none => rw [hy] at hx'; cases hx'
          | some y =>
            rw [hy] at hx'
            simp only [Option.map_some, Option.some.injEq] at hx'
            have := hall a b y hy
            rw [u1, ← hx', halg]
            exact this

theorem WF.pos_len {m : Model} (h : WF m) : 0 < m.utf8.length := by
  cases hx : m.utf8 with
  | nil => exact absurd hx h.ne
  | cons => simp

theorem WF.fix_lt {m : Model} (h : WF m) (s : Int) : m.fix s < m.utf8.length := by
  unfold Model.fix Model.validState
  split
  · next hv => simp only [Bool.and_eq_true, decide_eq_true_eq] at hv; omega
  · exact h.pos_len

theorem fix_eq (m : Model) (s : Int) :
    m.fix s = if 0 ≤ s ∧ s < m.utf8.length then s.toNat else 0 := by
  unfold Model.fix Model.validState
  simp only [Bool.and_eq_true, decide_eq_true_eq, and_comm]

theorem moves_obs_nonneg (utf8 : List Int) (i j : Nat) (us : List Update) :
    0 ≤ observed utf8 i j us := by
  induction us with
  | nil => simp [observed]
  | cons u us ih =>
    simp only [observed]
    split
    · omega
    · have : 0 ≤ u.count * ((moves utf8 (if 0 ≤ u.state ∧ u.state < utf8.length then u.state.toNat
          else 0) u.syms).count (i, j) : Int) := Int.mul_nonneg (by omega) (by omega)
      omega

theorem run_spec {us : List Update} : ∀ {m : Model}, WF m →
    (∀ m', run m us = .ok m' → WF m' ∧ m'.utf8 = m.utf8 ∧ m'.vocab = m.vocab ∧
      ∀ a b, m'.count a b = (m.count a b).map fun x => x + observed m.utf8 a b us) ∧
    ((∀ a b x, m.count a b = some x → x + observed m.utf8 a b us ≤ maxInt64) →
      ∃ m', run m us = .ok m') := by
  induction us with
  | nil =>
    intro m h
    refine ⟨?_, fun _ => ⟨m, rfl⟩⟩
    intro m' he
    simp only [run, Except.ok.injEq] at he
    subst he
    exact ⟨h, rfl, rfl, fun a b => by simp [observed]⟩
  | cons u us ih =>
    intro m h
    by_cases hn : u.count ≤ 0
    · simp only [run, updateLMCounts, if_pos hn, ok_bind, observed, Int.zero_add]
      exact ih h
    · obtain ⟨l1, l2⟩ := updateLoop_spec (cs := u.syms) h (h.fix_lt u.state) (n := u.count) (by omega)
      simp only [run, updateLMCounts, if_neg hn, observed]
      rw [fix_eq] at l1 l2
      rw [fix_eq]
      constructor
      · intro m' he
        obtain ⟨⟨b, m2⟩, e1, he⟩ := bind_ok.1 he
        obtain ⟨m1, e2, e1⟩ := bind_ok.1 e1
        simp only [Except.ok.injEq, Prod.mk.injEq] at e1
        obtain ⟨-, e1⟩ := e1
        subst e1
        obtain ⟨w1, u1, v1, k1⟩ := l1 _ e2
        obtain ⟨w', u', v', k'⟩ := (ih w1).1 m' he
        refine ⟨w', u'.trans u1, v'.trans v1, fun a b => ?_⟩
        rw [k' a b, k1 a b, u1]
        cases m.count a b with
        | none => rfl
        | some y => simp only [Option.map_some, Option.some.injEq]; omega
      · intro hall
        obtain ⟨m1, e1⟩ := l2 fun a b x hx => by
          have := hall a b x hx
          have := moves_obs_nonneg m.utf8 a b us
          omega
        obtain ⟨w1, u1, v1, k1⟩ := l1 m1 e1
        obtain ⟨m', e'⟩ := (ih w1).2 fun a b x hx => by
          rw [k1 a b] at hx
          cases hy : m.count a b with
          | none => rw [hy] at hx; cases hx
          | some y =>
            rw [hy] at hx
            simp only [Option.map_some, Option.some.injEq] at hx
            have := hall a b y hy
            rw [u1]; omega
        exact ⟨m', by simp only [e1, ok_bind]; exact e'⟩

theorem scoreLoop_eq (A : Arith) (enc : Int → Str) (m : Model) (nrm : Int) (cs : List Int) :
    ∀ {i : Nat} {us : List Int}, m.utf8.drop i = us → us.length = cs.length →
    scoreLoop A enc m nrm i cs =
      .ok (List.zip (us.map enc) (cs.map fun c => A.ddiv (A.ofInt c) (A.ofInt nrm))) := by
  induction cs with
  | nil =>
    intro i us _ hl
    cases us with
    | nil => rfl
    | cons => simp at hl
  | cons c cs ih =>
    intro i us hd hl
    cases us with
    | nil => simp at hl
    | cons u us =>
      have hu : m.utf8[i]? = some u := by
        have := congrArg (fun l => l[0]?) hd
        simpa using this
      have hd' : m.utf8.drop (i + 1) = us := by
        rw [← List.drop_drop, hd]; rfl
      simp only [scoreLoop, hu]
      rw [ih hd' (by simpa using hl)]
      rfl

end Mozolm.Bigram
