import Verif.Ppm.MemoryRun
import Verif.Ppm.TrainOk

/-!
# Teaching a text line by line makes the memory that training from it gives

`Made`: what a memory that knew nothing holds after the positions `P` of a text, with `past` before the next one.
-/

namespace Mozolm.Ppm
open Classical
variable {K : Nat} {P : List (List Int × Int)} {past : List Int} {M : Memory} {ws : List (List Int)}

/-- how often `y` follows `c` at the positions -/
def occ (P : List (List Int × Int)) (c : List Int) (y : Int) : Nat := P.countP fun p => c.isPrefixOf p.1 && p.2 == y

/-- there is no longer context -/
def Full (K : Nat) (c : List Int) : Prop := K ≤ c.length + 1 ∨ c.getLast? = some 0

/-- the symbols that extend `c` to a context with `y` -/
def before (P : List (List Int × Int)) (c : List Int) (y : Int) : Set Int := {x | 0 < occ P (c ++ [x]) y}

/-- the counts at the positions -/
noncomputable def tally (K : Nat) (P : List (List Int × Int)) (c : List Int) (y : Int) : Nat :=
  (if c = [] then 1 else 0) + if Full K c then occ P c y else (before P c y).ncard

/-- a beginning, and nothing like it after it -/
def Begun (p : List Int) : Prop := ∃ l, p = l ++ [0] ∧ (0 : Int) ∉ l

structure Made (K : Nat) (P : List (List Int × Int)) (past : List Int) (M : Memory) : Prop where
  known : ∀ c, M.known c ↔ c = [] ∨ c = [0] ∨ (c.length < K ∧ ((∃ p ∈ P, c <+: p.1) ∨ c <+: past))
  count : ∀ c y, c.length < K → M.count c y = tally K P c y
  zero : ∀ c y, K ≤ c.length → M.count c y = 0
  begun : ∀ p ∈ P, Begun p.1
  now : Begun past
  chain : ∀ p ∈ P, p.2 ≠ 0 → (∃ q ∈ P, q.1 = p.2 :: p.1) ∨ past = p.2 :: p.1

theorem occ_pos {c : List Int} {y : Int} : 0 < occ P c y ↔ ∃ p ∈ P, c <+: p.1 ∧ p.2 = y := by
  unfold occ
  rw [List.countP_pos_iff]
  simp

theorem occ_prefix {c d : List Int} {y : Int} (h : c <+: d) (hd : 0 < occ P d y) : 0 < occ P c y := by
  rw [occ_pos] at hd ⊢
  obtain ⟨p, h1, h2, h3⟩ := hd
  exact ⟨p, h1, h.trans h2, h3⟩

theorem occ_append {past c : List Int} {y z : Int} : occ (P ++ [(past, y)]) c z = occ P c z + if c <+: past ∧ z = y then 1 else 0 := by
  unfold occ
  rw [List.countP_append]
  congr 1
  by_cases h1 : c <+: past <;> by_cases h2 : z = y
  · subst h2; simp [h1]
  · have : ¬ y = z := fun e => h2 e.symm
    simp [h2, this]
  · simp [h1]
  · simp [h1]

theorem before_finite (P : List (List Int × Int)) (c : List Int) (y : Int) : (before P c y).Finite := by
  refine Set.Finite.subset (List.finite_toSet (P.map fun p => p.1.getD c.length 0)) fun x hx => ?_
  obtain ⟨p, h1, ⟨e, h2⟩, _⟩ := occ_pos.1 hx
  refine List.mem_map.2 ⟨p, h1, ?_⟩
  rw [← h2]
  simp

/-- a context that can be longer is extended wherever it occurs -/
theorem Begun.extends {p c : List Int} (hp : Begun p) (h : c <+: p) (hf : ¬ Full K c) : ∃ x, c ++ [x] <+: p := by
  obtain ⟨e, rfl⟩ := h
  cases e with
  | nil =>
    obtain ⟨l, h1, _⟩ := hp
    rw [List.append_nil] at h1
    exact absurd (.inr (by rw [h1]; simp)) hf
  | cons x e => exact ⟨x, e, by simp⟩

theorem Begun.full {p c : List Int} (hp : Begun p) (h : c <+: p) (hl : c.getLast? = some 0) : c = p := by
  obtain ⟨e, rfl⟩ := h
  obtain ⟨l, h1, h2⟩ := hp
  rcases List.eq_nil_or_concat e with rfl | ⟨e', x, rfl⟩
  · simp
  · rw [List.concat_eq_append, ← List.append_assoc] at h1
    have h3 := (List.append_inj' h1 rfl).1
    have : (0 : Int) ∈ c := List.mem_of_getLast? hl
    exact absurd (by rw [← h3]; simp [this]) h2

theorem tally_pos (hb : ∀ p ∈ P, Begun p.1) {c : List Int} {y : Int} (hc : c ≠ []) : 0 < tally K P c y ↔ 0 < occ P c y := by
  unfold tally
  rw [if_neg hc, Nat.zero_add]
  by_cases hf : Full K c
  · rw [if_pos hf]
  · rw [if_neg hf, Set.ncard_pos (before_finite P c y)]
    constructor
    · rintro ⟨x, hx⟩
      exact occ_prefix (List.prefix_append _ _) hx
    · intro h
      obtain ⟨p, h1, h2, h3⟩ := occ_pos.1 h
      obtain ⟨x, hx⟩ := (hb p h1).extends h2 hf
      exact ⟨x, occ_pos.2 ⟨p, h1, hx, h3⟩⟩

/-- nothing taught -/
theorem Made.blank (hK : 2 ≤ K) : Made K [] [0] Memory.blank where
  known c := by
    show c = [] ∨ c = [0] ↔ _
    constructor
    · rintro (h | h)
      · exact .inl h
      · exact .inr (.inl h)
    · rintro (h | h | ⟨_, h | h⟩)
      · exact .inl h
      · exact .inr h
      · simp at h
      · cases c with
        | nil => exact .inl rfl
        | cons x c =>
          obtain ⟨rfl, h2⟩ := List.cons_prefix_cons.1 h
          rw [List.prefix_nil.1 h2]
          exact .inr rfl
  count c y _ := by
    show (if c = [] then 1 else 0) = _
    unfold tally before
    simp [occ]
  zero c y h := by
    show (if c = [] then 1 else 0) = 0
    rw [if_neg (by rintro rfl; simp at h; omega)]
  begun p h := by cases h
  now := ⟨[], rfl, by simp⟩
  chain p h := by cases h

theorem take_full (hn : Begun past) : Full K (past.take (K - 1)) := by
  by_cases h : K - 1 ≤ past.length
  · left; rw [List.length_take]; omega
  · right
    rw [List.take_of_length_le (by omega)]
    obtain ⟨l, rfl, _⟩ := hn
    simp

theorem full_take (hn : Begun past) {c : List Int} (hc : c <+: past) (hl : c.length < K) (hf : Full K c) : c = past.take (K - 1) := by
  rcases hf with hf | hf
  · rw [List.prefix_iff_eq_take.1 hc]
    congr 1; omega
  · obtain rfl := hn.full hc hf
    rw [List.take_of_length_le (by omega)]

theorem prefix_take {c : List Int} (hc : c <+: past) (hl : c.length < K) : c <+: past.take (K - 1) := by
  rw [List.prefix_take_iff]
  exact ⟨hc, by omega⟩

/-- what one more position does to the counts -/
theorem tally_step (hn : Begun past) {c : List Int} (y z : Int) :
    tally K (P ++ [(past, y)]) c z = tally K P c z +
      if z = y ∧ c <+: past ∧ (Full K c ∨ ∀ x, c ++ [x] <+: past → occ P (c ++ [x]) y = 0) then 1 else 0 := by
  unfold tally
  rw [Nat.add_assoc]
  congr 1
  by_cases hf : Full K c
  · rw [if_pos hf, if_pos hf, occ_append]
    congr 1
    simp only [hf, true_or, and_true]
    by_cases h1 : c <+: past <;> by_cases h2 : z = y <;> simp [h1, h2]
  · rw [if_neg hf, if_neg hf]
    have hset : before (P ++ [(past, y)]) c z = before P c z ∪ {x | c ++ [x] <+: past ∧ z = y} := by
      ext x
      simp only [before, Set.mem_ofPred_eq, Set.mem_union, occ_append]
      by_cases h : c ++ [x] <+: past ∧ z = y
      · rw [if_pos h]; exact ⟨fun _ => .inr h, fun _ => by omega⟩
      · rw [if_neg h]; exact ⟨fun h' => .inl (by omega), fun h' => h'.elim (by omega) fun e => absurd e h⟩
    rw [hset]
    by_cases h : z = y ∧ c <+: past
    · obtain ⟨rfl, h⟩ := h
      obtain ⟨x, hx⟩ := hn.extends h hf
      have huniq : ∀ x', c ++ [x'] <+: past → x' = x := by
        intro x' hx'
        have := List.prefix_of_prefix_length_le hx' hx (by simp)
        have := this.eq_of_length (by simp)
        simpa using this
      have he : {x | c ++ [x] <+: past ∧ z = z} = {x} := by
        ext x'
        simp only [and_true, Set.mem_ofPred_eq, Set.mem_singleton_iff]
        exact ⟨huniq x', fun e => e ▸ hx⟩
      rw [he, Set.union_singleton]
      by_cases h0 : occ P (c ++ [x]) z = 0
      · rw [if_pos ⟨rfl, h, .inr fun x' hx' => by rw [huniq x' hx']; exact h0⟩,
          Set.ncard_insert_of_notMem (by simp [before, h0]) (before_finite P c z)]
      · rw [if_neg (fun e => e.2.2.elim hf fun e => h0 (e x hx)), Set.insert_eq_of_mem (show x ∈ before P c z from Nat.pos_of_ne_zero h0)]
        rfl
    · have he : {x | c ++ [x] <+: past ∧ z = y} = ∅ := by
        ext x'
        simp only [Set.mem_ofPred_eq, Set.mem_empty_iff_false, iff_false]
        exact fun e => h ⟨e.2, (List.prefix_append _ _).trans e.1⟩
      rw [he, Set.union_empty, if_neg fun e => h ⟨e.1, e.2.1⟩]
      rfl

theorem Made.nil (h : Made K P past M) : M.known [] := (h.known []).2 (.inl rfl)

/-- where an observation is counted -/
theorem Made.counted_at (h : Made K P past M) (hK : 2 ≤ K) {q : List Int} (hq : Begun q) {c : List Int} (hl : c.length < K) (y : Int) :
    M.Counted (q.take (K - 1)) y c ↔ c <+: q ∧ (Full K c ∨ ∀ x, c ++ [x] <+: q → occ P (c ++ [x]) y = 0) := by
  constructor
  · rintro ⟨h1, h2⟩
    refine ⟨h1.trans (List.take_prefix _ _), ?_⟩
    by_cases hf : Full K c
    · exact .inl hf
    · refine .inr fun x hx => ?_
      have hlen : (c ++ [x]).length < K := by
        have : ¬ K ≤ c.length + 1 := fun e => hf (.inl e)
        simp; omega
      have h3 := h2 _ (List.prefix_append _ _) (prefix_take hx hlen) (by simp)
      rw [h.count _ _ hlen] at h3
      by_contra h0
      have := (tally_pos (K := K) h.begun (c := c ++ [x]) (by simp)).2 (Nat.pos_of_ne_zero h0)
      omega
  · rintro ⟨h1, h2⟩
    refine ⟨prefix_take h1 hl, fun e h3 h4 h5 => ?_⟩
    rcases h2 with h2 | h2
    · rw [full_take hq h1 hl h2] at h3 h5
      exact absurd (h4.eq_of_length_le h3.length_le) h5
    · have hel : e.length < K := by
        have := h4.length_le
        rw [List.length_take] at this
        omega
      obtain ⟨r, rfl⟩ := h3
      cases r with
      | nil => exact absurd (List.append_nil _) h5
      | cons x r =>
        have h6 : c ++ [x] <+: c ++ x :: r := ⟨r, by simp⟩
        have h7 := h2 x (h6.trans (h4.trans (List.take_prefix _ _)))
        rw [h.count _ _ hel]
        by_contra h0
        have := (tally_pos (K := K) h.begun (c := c ++ x :: r) (by simp)).1 (Nat.pos_of_ne_zero h0)
        have := occ_prefix h6 this
        omega

theorem Made.counted (h : Made K P past M) (hK : 2 ≤ K) {c : List Int} (hl : c.length < K) (y : Int) :
    M.Counted (past.take (K - 1)) y c ↔ c <+: past ∧ (Full K c ∨ ∀ x, c ++ [x] <+: past → occ P (c ++ [x]) y = 0) :=
  h.counted_at hK h.now hl y

/-- one more position -/
theorem Made.step (h : Made K P past M) (hK : 2 ≤ K) (y : Int) :
    Made K (P ++ [(past, y)]) (if y = 0 then [0] else y :: past) (M.observe K (past.take (K - 1)) y) where
  known c := by
    have hold : ∀ c, (∃ p ∈ P ++ [(past, y)], c <+: p.1) ↔ (∃ p ∈ P, c <+: p.1) ∨ c <+: past := by
      intro c
      constructor
      · rintro ⟨p, h1, h2⟩
        rcases List.mem_append.1 h1 with h1 | h1
        · exact .inl ⟨p, h1, h2⟩
        · rw [List.mem_singleton.1 h1] at h2; exact .inr h2
      · rintro (⟨p, h1, h2⟩ | h2)
        · exact ⟨p, List.mem_append_left _ h1, h2⟩
        · exact ⟨_, List.mem_append_right _ (List.mem_singleton.2 rfl), h2⟩
    rw [hold]
    constructor
    · rintro (h1 | ⟨hy, e, h2, rfl⟩)
      · rcases (h.known c).1 h1 with h1 | h1 | ⟨h1, h2⟩
        · exact .inl h1
        · exact .inr (.inl h1)
        · exact .inr (.inr ⟨h1, .inl h2⟩)
      · refine .inr (.inr ⟨by rw [List.length_take]; omega, .inr ?_⟩)
        rw [if_neg hy]
        exact (List.take_prefix _ _).trans ((List.prefix_cons_inj y).2 (h2.1.trans (List.take_prefix _ _)))
    · rintro (h1 | h1 | ⟨h1, h2 | h2⟩)
      · exact .inl ((h.known c).2 (.inl h1))
      · exact .inl ((h.known c).2 (.inr (.inl h1)))
      · exact .inl ((h.known c).2 (.inr (.inr ⟨h1, h2⟩)))
      · by_cases hy : y = 0
        · rw [if_pos hy] at h2
          cases c with
          | nil => exact .inl h.nil
          | cons x c =>
            obtain ⟨rfl, h3⟩ := List.cons_prefix_cons.1 h2
            rw [List.prefix_nil.1 h3]
            exact .inl ((h.known [0]).2 (.inr (.inl rfl)))
        · rw [if_neg hy] at h2
          cases c with
          | nil => exact .inl h.nil
          | cons x c =>
            obtain ⟨rfl, h3⟩ := List.cons_prefix_cons.1 h2
            rw [List.length_cons] at h1
            by_cases hc : M.Counted (past.take (K - 1)) x c
            · refine .inr ⟨hy, c, hc, ?_⟩
              rw [List.take_of_length_le (by simp; omega)]
            · rw [h.counted hK (by omega)] at hc
              push Not at hc
              obtain ⟨hc1, z, hc2, hc3⟩ := hc h3
              obtain ⟨p, p1, p2, p3⟩ := occ_pos.1 (occ_prefix (List.prefix_append c [z]) (Nat.pos_of_ne_zero hc3))
              refine .inl ((h.known _).2 (.inr (.inr ⟨by simpa using h1, ?_⟩)))
              have p4 : x :: c <+: p.2 :: p.1 := by rw [p3]; exact (List.prefix_cons_inj x).2 p2
              rcases h.chain p p1 (by rw [p3]; exact hy) with ⟨q, q1, q2⟩ | q2
              · exact .inl ⟨q, q1, by rw [q2]; exact p4⟩
              · exact .inr (by rw [q2]; exact p4)
  count c z hl := by
    rw [tally_step h.now, ← h.count c z hl]
    by_cases hz : z = y ∧ M.Counted (past.take (K - 1)) y c
    · rw [show (M.observe K (past.take (K - 1)) y).count c z = M.count c z + 1 from if_pos hz]
      rw [h.counted hK hl] at hz
      rw [if_pos hz]
    · rw [show (M.observe K (past.take (K - 1)) y).count c z = M.count c z from if_neg hz]
      rw [h.counted hK hl] at hz
      rw [if_neg hz, Nat.add_zero]
  zero c z hl := by
    rw [show (M.observe K (past.take (K - 1)) y).count c z = M.count c z from if_neg ?_]
    · exact h.zero c z hl
    · rintro ⟨_, h1, _⟩
      have := h1.length_le
      rw [List.length_take] at this
      omega
  begun p hp := by
    rcases List.mem_append.1 hp with h1 | h1
    · exact h.begun p h1
    · rw [List.mem_singleton.1 h1]; exact h.now
  now := by
    split
    · exact ⟨[], rfl, by simp⟩
    · rename_i hy
      obtain ⟨l, h1, h2⟩ := h.now
      exact ⟨y :: l, by rw [h1]; rfl, by simp [h2]; exact fun e => hy e.symm⟩
  chain p hp hne := by
    rcases List.mem_append.1 hp with h1 | h1
    · rcases h.chain p h1 hne with ⟨q, q1, q2⟩ | q2
      · exact .inl ⟨q, List.mem_append_left _ q1, q2⟩
      · exact .inl ⟨_, List.mem_append_right _ (List.mem_singleton.2 rfl), q2⟩
    · obtain rfl := List.mem_singleton.1 h1
      exact .inr (if_neg hne)

/-- the same position again -/
theorem Made.again (h : Made K P past M) (hK : 2 ≤ K) {q : List Int} {y : Int} (hq : (q, y) ∈ P) :
    Made K (P ++ [(q, y)]) past (M.observe K (q.take (K - 1)) y) where
  known c := by
    have hmem : ∀ p, p ∈ P ++ [(q, y)] ↔ p ∈ P := fun p => by
      rw [List.mem_append, List.mem_singleton]
      exact ⟨fun h => h.elim id fun e => e ▸ hq, .inl⟩
    simp only [hmem]
    rw [← h.known c]
    constructor
    · rintro (h1 | ⟨hy, e, h2, rfl⟩)
      · exact h1
      · have h3 : (y :: e).take (K - 1) <+: y :: q :=
          (List.take_prefix _ _).trans ((List.prefix_cons_inj y).2 (h2.1.trans (List.take_prefix _ _)))
        refine (h.known _).2 (.inr (.inr ⟨by rw [List.length_take]; omega, ?_⟩))
        rcases h.chain _ hq hy with ⟨p, p1, p2⟩ | p2
        · exact .inl ⟨p, p1, by rw [p2]; exact h3⟩
        · exact .inr (by rw [p2]; exact h3)
    · exact .inl
  count c z hl := by
    have hb := h.begun _ hq
    rw [tally_step hb, ← h.count c z hl]
    by_cases hz : z = y ∧ M.Counted (q.take (K - 1)) y c
    · rw [show (M.observe K (q.take (K - 1)) y).count c z = M.count c z + 1 from if_pos hz]
      rw [h.counted_at hK hb hl] at hz
      rw [if_pos hz]
    · rw [show (M.observe K (q.take (K - 1)) y).count c z = M.count c z from if_neg hz]
      rw [h.counted_at hK hb hl] at hz
      rw [if_neg hz, Nat.add_zero]
  zero c z hl := by
    rw [show (M.observe K (q.take (K - 1)) y).count c z = M.count c z from if_neg ?_]
    · exact h.zero c z hl
    · rintro ⟨_, h1, _⟩
      have := h1.length_le
      rw [List.length_take] at this
      omega
  begun p hp := by
    rcases List.mem_append.1 hp with h1 | h1
    · exact h.begun p h1
    · rw [List.mem_singleton.1 h1]; exact h.begun _ hq
  now := h.now
  chain p hp hne := by
    have hp' : p ∈ P := by
      rcases List.mem_append.1 hp with h1 | h1
      · exact h1
      · rw [List.mem_singleton.1 h1]; exact hq
    exact (h.chain p hp' hne).imp_left fun ⟨r, r1, r2⟩ => ⟨r, List.mem_append_left _ r1, r2⟩

theorem Made.againN (hK : 2 ≤ K) {q : List Int} {y : Int} (n : Nat) : ∀ {P : List (List Int × Int)} {M : Memory}, Made K P past M → (q, y) ∈ P →
    Made K (P ++ List.replicate n (q, y)) past (M.observeN K (q.take (K - 1)) y n) := by
  induction n with
  | zero => intro P M h _; simpa [Memory.observeN] using h
  | succ n ih =>
    intro P M h hq
    have := ih (h.again hK hq) (List.mem_append_left _ hq)
    rw [List.append_assoc] at this
    exact this

/-- a position several times -/
theorem Made.stepN (h : Made K P past M) (hK : 2 ≤ K) (y : Int) (n : Nat) :
    Made K (P ++ List.replicate (n + 1) (past, y)) (if y = 0 then [0] else y :: past) (M.observeN K (past.take (K - 1)) y (n + 1)) := by
  have := Made.againN hK n (h.step hK y) (q := past) (y := y) (by simp)
  rw [List.append_assoc] at this
  exact this

theorem Made.perm (h : Made K P past M) {P' : List (List Int × Int)} (hp : P.Perm P') : Made K P' past M where
  known c := by
    rw [h.known c]
    simp only [hp.mem_iff]
  count c y hl := by
    rw [h.count c y hl]
    have ho : ∀ c y, occ P c y = occ P' c y := fun c y => hp.countP_eq _
    unfold tally before
    simp only [ho]
  zero := h.zero
  begun p hp' := h.begun p (hp.mem_iff.2 hp')
  now := h.now
  chain p hp' hne := by
    have := h.chain p (hp.mem_iff.2 hp') hne
    simpa only [hp.mem_iff] using this

theorem Made.zero_taken (hK : 2 ≤ K) : ([0] : List Int).take (K - 1) = [0] := List.take_of_length_le (by simp; omega)

/-- the longest known context after an observation -/
theorem Made.longest (h : Made K P (y :: past) M) (hK : 2 ≤ K) : M.longest (y :: past.take (K - 1)) = (y :: past).take (K - 1) := by
  refine (M.longest_eq h.nil ((h.known _).2 (.inr (.inr ⟨by rw [List.length_take]; omega, .inr (List.take_prefix _ _)⟩))) ?_ ?_).symm
  · rw [show K - 1 = (K - 2) + 1 by omega, List.take_succ_cons, List.prefix_cons_inj]
    exact List.take_prefix_take_left (by omega)
  · intro e he hp
    rw [List.length_take]
    have h1 := hp.length_le
    rw [List.length_cons, List.length_take] at h1
    rw [List.length_cons]
    rcases (h.known e).1 he with rfl | rfl | ⟨h2, _⟩
    · simp
    · simp; omega
    · omega

/-- the rest of a line -/
theorem Made.line {a : Alphabet} {label : Int → Int} (he : a.taught 0 = some 0) (hK : 2 ≤ K) (cs : List Int)
    (ht : ∀ s ∈ cs, a.taught s = some (label s) ∧ a.typed s = label s ∧ label s ≠ 0) :
    ∀ {P : List (List Int × Int)} {past : List Int} {M : Memory}, Made K P past M →
      Made K (P ++ positionsFrom past (cs.map label)) [0] (M.learn K a 1 (past.take (K - 1)) (cs ++ [0])) := by
  induction cs with
  | nil =>
    intro P past M h
    have := h.step hK 0
    rw [if_pos rfl] at this
    simpa [Memory.learn, Memory.learnOne, he, positionsFrom, Memory.observeN] using this
  | cons s cs ih =>
    intro P past M h
    obtain ⟨t1, t2, t3⟩ := ht s (by simp)
    have h1 := h.step hK (label s)
    rw [if_neg t3] at h1
    have h2 := ih (fun r hr => ht r (by simp [hr])) h1
    have e : M.learn K a 1 (past.take (K - 1)) (s :: cs ++ [0]) =
        (M.observe K (past.take (K - 1)) (label s)).learn K a 1 ((label s :: past).take (K - 1)) (cs ++ [0]) := by
      rw [List.cons_append, Memory.learn]
      simp only [Memory.learnOne, t1, t2, Memory.observeN]
      rw [h1.longest hK]
    rw [e, List.map_cons, positionsFrom, List.append_cons]
    exact h2

theorem replicate_positions (xs : List (List Int × Int)) (n : Nat) :
    (xs.flatMap (List.replicate n)).Perm (List.replicate n xs).flatten := by
  induction n with
  | zero => simp
  | succ n ih =>
    rw [List.replicate_succ, List.flatten_cons]
    refine List.Perm.trans ?_ (List.Perm.append_left xs ih)
    have := (List.flatMap_append_perm xs (fun x => [x]) (List.replicate n)).symm
    rw [List.flatMap_singleton'] at this
    exact this

/-- the rest of a line, several times at once -/
theorem Made.lineN {a : Alphabet} {label : Int → Int} (he : a.taught 0 = some 0) (hK : 2 ≤ K) (n : Nat) (cs : List Int)
    (ht : ∀ s ∈ cs, a.taught s = some (label s) ∧ a.typed s = label s ∧ label s ≠ 0) :
    ∀ {P : List (List Int × Int)} {past : List Int} {M : Memory}, Made K P past M →
      Made K (P ++ (positionsFrom past (cs.map label)).flatMap (List.replicate (n + 1))) [0]
        (M.learn K a (n + 1) (past.take (K - 1)) (cs ++ [0])) := by
  induction cs with
  | nil =>
    intro P past M h
    have := h.stepN hK 0 n
    rw [if_pos rfl] at this
    have e : M.learn K a (n + 1) (past.take (K - 1)) ([] ++ [0]) = M.observeN K (past.take (K - 1)) 0 (n + 1) := by
      simp only [List.nil_append, Memory.learn, Memory.learnOne, he]
    rw [e]
    simpa [positionsFrom] using this
  | cons s cs ih =>
    intro P past M h
    obtain ⟨t1, t2, t3⟩ := ht s (by simp)
    have h1 := h.stepN hK (label s) n
    rw [if_neg t3] at h1
    have h2 := ih (fun r hr => ht r (by simp [hr])) h1
    have e : M.learn K a (n + 1) (past.take (K - 1)) (s :: cs ++ [0]) =
        (M.observeN K (past.take (K - 1)) (label s) (n + 1)).learn K a (n + 1) ((label s :: past).take (K - 1)) (cs ++ [0]) := by
      rw [List.cons_append, Memory.learn]
      simp only [Memory.learnOne, t1, t2]
      rw [h1.longest hK]
    rw [e, List.map_cons, positionsFrom, List.flatMap_cons, ← List.append_assoc]
    exact h2

/-- a line from the beginning, several times at once -/
theorem Made.copies {a : Alphabet} {label : Int → Int} (he : a.taught 0 = some 0) (hK : 2 ≤ K) (n : Nat) (l : List Int)
    (ht : ∀ s ∈ l, a.taught s = some (label s) ∧ a.typed s = label s ∧ label s ≠ 0)
    {ws : List (List Int)} {M : Memory} (h : Made K (positions ws) [0] M) :
    Made K (positions (ws ++ List.replicate (n + 1) (l.map label))) [0] (M.learn K a (n + 1) [0] (l ++ [0])) := by
  have h1 := h.lineN he hK n l ht
  rw [Made.zero_taken hK] at h1
  refine h1.perm ?_
  rw [show positions (ws ++ List.replicate (n + 1) (l.map label)) =
    positions ws ++ (List.replicate (n + 1) (positionsFrom [0] (l.map label))).flatten by
      simp only [positions, List.flatMap_append]
      rw [List.flatMap_def, List.flatMap_def, List.map_replicate]]
  exact (replicate_positions _ _).append_left _

/-- several lines, each from the beginning -/
theorem Made.lines {a : Alphabet} {label : Int → Int} (he : a.taught 0 = some 0) (hK : 2 ≤ K) (text : List (List Int))
    (ht : ∀ l ∈ text, ∀ s ∈ l, a.taught s = some (label s) ∧ a.typed s = label s ∧ label s ≠ 0) :
    ∀ {ws : List (List Int)} {M : Memory}, Made K (positions ws) [0] M →
      Made K (positions (ws ++ text.map fun l => l.map label)) [0] (text.foldl (fun M l => M.learn K a 1 [0] (l ++ [0])) M) := by
  induction text with
  | nil => intro ws M h; simpa using h
  | cons l text ih =>
    intro ws M h
    have h1 := h.line he hK l (ht l (by simp))
    rw [Made.zero_taken hK] at h1
    have h2 : Made K (positions (ws ++ [l.map label])) [0] (M.learn K a 1 [0] (l ++ [0])) := by
      simpa [positions] using h1
    have h3 := ih (fun r hr => ht r (by simp [hr])) h2
    simpa using h3

theorem begun_positionsFrom {w : List Int} (hw : (0 : Int) ∉ w) : ∀ {past : List Int}, Begun past → ∀ p ∈ positionsFrom past w, Begun p.1 := by
  induction w with
  | nil => intro past h p hp; rw [List.mem_singleton.1 hp]; exact h
  | cons x w ih =>
    intro past h p hp
    rcases List.mem_cons.1 hp with rfl | hp
    · exact h
    · refine ih (fun e => hw (by simp [e])) ?_ p hp
      obtain ⟨l, h1, h2⟩ := h
      exact ⟨x :: l, by rw [h1]; rfl, by
        rw [List.mem_cons]
        rintro (e | e)
        · exact hw (by simp [e])
        · exact h2 e⟩

theorem begun_positions (hw : ∀ w ∈ ws, (0 : Int) ∉ w) : ∀ p ∈ positions ws, Begun p.1 := by
  intro p hp
  obtain ⟨w, h1, h2⟩ := List.mem_flatMap.mp hp
  exact begun_positionsFrom (hw w h1) ⟨[], rfl, by simp⟩ p h2

/-- the counts prescribed for training are those made by teaching -/
theorem tally_trained (hK : 2 ≤ K) (hb : ∀ p ∈ positions ws, Begun p.1) {c : List Int} (y : Int) :
    c.length < K → tally K (positions ws) c y = trainedCount K ws c y := by
  intro hl
  have himg : ¬ Full K c → {d ∈ Longer K ws c | 0 < occurrences ws d y}.ncard = (before (positions ws) c y).ncard := by
    intro hf
    rw [← Set.ncard_image_of_injective (f := fun x => c ++ [x]) (before (positions ws) c y) (fun x x' e => by simpa using e)]
    congr 1
    ext d
    simp only [Set.mem_image, Set.mem_ofPred_eq, Longer, before]
    constructor
    · rintro ⟨⟨h1, h2, h3⟩, h4⟩
      refine ⟨d.getLast h2, ?_, ?_⟩
      · rw [← h3, List.dropLast_concat_getLast]; exact h4
      · rw [← h3, List.dropLast_concat_getLast]
    · rintro ⟨x, h1, rfl⟩
      obtain ⟨p, p1, p2, _⟩ := occ_pos.1 h1
      refine ⟨⟨⟨?_, p, p1, p2⟩, by simp, by simp⟩, h1⟩
      have : ¬ K ≤ c.length + 1 := fun e => hf (.inl e)
      simp; omega
  unfold tally trainedCount
  by_cases hc : c = []
  · subst hc
    have hf : ¬ Full K [] := by
      rintro (h | h)
      · simp at h; omega
      · simp at h
    rw [if_pos rfl, if_pos rfl, if_neg hf, himg hf, Nat.add_comm]
  · rw [if_neg hc, if_neg hc, Nat.zero_add]
    by_cases hf : Full K c
    · rw [if_pos hf, if_neg]
      · rfl
      · rintro ⟨d, ⟨d1, p, p1, p2⟩, d2, d3⟩
        have e : d = c ++ [d.getLast d2] := by rw [← d3, List.dropLast_concat_getLast]
        rw [e] at d1 p2
        rcases hf with hf | hf
        · simp at d1; omega
        · have := (hb p p1).full ((List.prefix_append _ _).trans p2) hf
          have h2 := p2.length_le
          rw [← this] at h2
          simp at h2
    · rw [if_neg hf]
      by_cases hL : (Longer K ws c).Nonempty
      · rw [if_pos hL, himg hf]
      · rw [if_neg hL, ← himg hf]
        have h0 : occurrences ws c y = 0 := by
          by_contra h0
          obtain ⟨p, p1, p2, _⟩ := occurrences_pos.1 (Nat.pos_of_ne_zero h0)
          obtain ⟨x, hx⟩ := (hb p p1).extends p2 hf
          refine hL ⟨c ++ [x], ⟨?_, p, p1, hx⟩, by simp, by simp⟩
          have : ¬ K ≤ c.length + 1 := fun e => hf (.inl e)
          simp; omega
        rw [h0]
        have : {d ∈ Longer K ws c | 0 < occurrences ws d y} = ∅ := by
          ext d
          simp only [Set.mem_ofPred_eq, Set.mem_empty_iff_false, iff_false]
          rintro ⟨h1, _⟩
          exact hL ⟨d, h1⟩
        rw [this, Set.ncard_empty]

/-- what is made of a text is what training from it makes -/
theorem Made.ofText (h : Made K (positions ws) [0] M) (hK : 2 ≤ K) (hne : ws ≠ []) : M = Memory.ofText K ws := by
  have hk : M.known = (Memory.ofText K ws).known := by
    funext c
    refine propext ((h.known c).trans ?_)
    show _ ↔ IsContext K ws c
    constructor
    · rintro (rfl | rfl | ⟨h1, h2 | h2⟩)
      · exact .nil (by omega) hne
      · have := IsContext.start (order := K) (ws := ws) (by omega) hne
        rwa [Made.zero_taken hK] at this
      · exact ⟨h1, h2⟩
      · have := IsContext.start (order := K) (ws := ws) (by omega) hne
        rw [Made.zero_taken hK] at this
        exact this.prefix h2
    · rintro ⟨h1, h2⟩
      exact .inr (.inr ⟨h1, .inl h2⟩)
  have hc : M.count = (Memory.ofText K ws).count := by
    funext c y
    show _ = if c.length < K then trainedCount K ws c y else 0
    by_cases hl : c.length < K
    · rw [if_pos hl, h.count c y hl, tally_trained hK h.begun y hl]
    · rw [if_neg hl, h.zero c y (by omega)]
  cases M
  simp only at hk hc
  subst hk hc
  rfl

/-- what training makes can be taught more -/
theorem made_ofText (hK : 2 ≤ K) (hne : ws ≠ []) (hw : ∀ w ∈ ws, (0 : Int) ∉ w) : Made K (positions ws) [0] (Memory.ofText K ws) where
  known c := by
    show IsContext K ws c ↔ _
    constructor
    · rintro ⟨h1, h2⟩
      exact .inr (.inr ⟨h1, .inl h2⟩)
    · rintro (rfl | rfl | ⟨h1, h2 | h2⟩)
      · exact .nil (by omega) hne
      · have := IsContext.start (order := K) (ws := ws) (by omega) hne
        rwa [Made.zero_taken hK] at this
      · exact ⟨h1, h2⟩
      · have := IsContext.start (order := K) (ws := ws) (by omega) hne
        rw [Made.zero_taken hK] at this
        exact this.prefix h2
  count c y hl := by
    show (if c.length < K then trainedCount K ws c y else 0) = _
    rw [if_pos hl, tally_trained hK (begun_positions hw) y hl]
  zero c y hl := by
    show (if c.length < K then trainedCount K ws c y else 0) = _
    rw [if_neg (by omega)]
  begun := begun_positions hw
  now := ⟨[], rfl, by simp⟩
  chain p hp hne := .inl (positions_next p hp hne)

end Mozolm.Ppm
