import Verif.Ppm.MemoryRun
import Verif.Ppm.UnigramSpec
import Verif.Ppm.MemorySpec

/-!
# What a model that knew nothing knows of single symbols after one text

The count of a symbol in the empty context is one more than the number of different symbols before it (the beginning of the
text being one), and in the context of the beginning only the first symbol of the text was counted.
-/

namespace Mozolm.Ppm
open Classical
variable {K V : Nat} {M : Memory} {a : Alphabet} {S : Finset (Int × Int)}

/-- What was counted in the two shortest contexts: each pair in `S` at least once; different pairs once in the empty one. -/
structure Paired (M : Memory) (S : Finset (Int × Int)) : Prop where
  pairs : ∀ z y, 0 < M.count [z] y ↔ (z, y) ∈ S
  empty : ∀ y, M.count [] y = 1 + (S.filter fun p => p.2 = y).card
  lower : ∀ c y, 0 < M.count c y → 0 < M.count c.dropLast y

theorem Paired.blank : Paired Memory.blank ∅ where
  pairs z y := by simp [Memory.blank]
  empty y := by simp [Memory.blank]
  lower c y h := by
    by_cases hc : c = []
    · simp [hc, Memory.blank]
    · simp [Memory.blank, hc] at h

theorem Paired.prefix (h : Paired M S) {c d : List Int} {y : Int} (hd : d <+: c) (hc : 0 < M.count c y) : 0 < M.count d y := by
  obtain ⟨e, rfl⟩ := hd
  induction e using List.reverseRecOn with
  | nil => simpa using hc
  | append_singleton e x ih =>
    refine ih ?_
    have := h.lower _ _ hc
    rwa [← List.append_assoc, List.dropLast_concat] at this

theorem Memory.observe_at (K : Nat) (M : Memory) (c : List Int) (y : Int) {d : List Int} {z : Int} (h : z = y ∧ M.Counted c y d) :
    (M.observe K c y).count d z = M.count d z + 1 := if_pos h

theorem Memory.observe_not (K : Nat) (M : Memory) (c : List Int) (y : Int) {d : List Int} {z : Int} (h : ¬ (z = y ∧ M.Counted c y d)) :
    (M.observe K c y).count d z = M.count d z := if_neg h

theorem prefix_cons_two {x : Int} {c e : List Int} (h : e <+: x :: c) (he : e ≠ []) : [x] <+: e := by
  cases e with
  | nil => exact absurd rfl he
  | cons z e =>
    obtain ⟨rfl, _⟩ := List.cons_prefix_cons.mp h
    exact ⟨e, rfl⟩

/-- one observation after a context that ends with `x` -/
theorem Paired.observe (h : Paired M S) (x y : Int) (c : List Int) : Paired (M.observe K (x :: c) y) (insert (x, y) S) := by
  have hold : 0 < M.count [x] y ↔ (x, y) ∈ S := h.pairs x y
  refine ⟨fun z w => ?_, fun w => ?_, fun d w hd => ?_⟩
  · by_cases hw : w = y ∧ M.Counted (x :: c) y [z]
    · rw [Memory.observe_at K M _ _ hw]
      obtain ⟨rfl, hc⟩ := hw
      obtain ⟨rfl, _⟩ := List.cons_prefix_cons.mp hc.1
      simp
    · rw [Memory.observe_not K M _ _ hw, h.pairs, Finset.mem_insert]
      refine ⟨.inr, fun hz => hz.elim (fun e => ?_) id⟩
      obtain ⟨rfl, rfl⟩ := Prod.mk.inj e
      by_contra hne
      refine hw ⟨rfl, ⟨c, rfl⟩, fun e h1 h2 h3 => ?_⟩
      by_contra h0
      exact hne (hold.1 (h.prefix h1 (Nat.pos_of_ne_zero h0)))
  · by_cases hS : (x, y) ∈ S
    · have hn : ¬ (w = y ∧ M.Counted (x :: c) y []) := by
        rintro ⟨_, hc⟩
        have := hc.2 [x] List.nil_prefix ⟨c, rfl⟩ (by simp)
        have := hold.2 hS
        omega
      rw [Memory.observe_not K M _ _ hn, Finset.insert_eq_of_mem hS, h.empty]
    · by_cases hw : w = y
      · subst hw
        have hc : M.Counted (x :: c) w [] := by
          refine ⟨List.nil_prefix, fun e _ h2 h3 => ?_⟩
          by_contra h0
          exact hS (hold.1 (h.prefix (prefix_cons_two h2 h3) (Nat.pos_of_ne_zero h0)))
        rw [Memory.observe_at K M _ _ ⟨rfl, hc⟩, h.empty, Finset.filter_insert, if_pos rfl,
          Finset.card_insert_of_notMem (by simp [hS])]
        omega
      · rw [Memory.observe_not K M _ _ (fun e => hw e.1), h.empty, Finset.filter_insert, if_neg (fun e => hw e.symm)]
  · have hmono := M.observe_mono K (x :: c) y d.dropLast w
    by_cases hw : w = y ∧ M.Counted (x :: c) y d
    · obtain ⟨rfl, hc⟩ := hw
      by_cases h0 : 0 < M.count d w
      · have := h.lower _ _ h0; omega
      · rw [Memory.observe_at K M _ _ ⟨rfl, hc.next (by omega)⟩]; omega
    · rw [Memory.observe_not K M _ _ hw] at hd
      have := h.lower _ _ hd; omega

theorem Paired.observeN (x y : Int) (c : List Int) (n : Nat) : ∀ {M : Memory} {S : Finset (Int × Int)}, Paired M S →
    Paired (M.observeN K (x :: c) y (n + 1)) (insert (x, y) S) := by
  induction n with
  | zero => intro M S h; exact h.observe x y c
  | succ n ih =>
    intro M S h
    have := ih (h.observe (K := K) x y c)
    rwa [Finset.insert_idem] at this

/-- an observation that is not made at the beginning is not counted there -/
theorem Memory.observeN_start {x : Int} (hx : x ≠ 0) (c : List Int) (y : Int) (n : Nat) : ∀ (M : Memory) (z : Int),
    (M.observeN K (x :: c) y n).count [0] z = M.count [0] z := by
  induction n with
  | zero => intro M z; rfl
  | succ n ih =>
    intro M z
    rw [Memory.observeN, ih, Memory.observe_not]
    rintro ⟨_, hc⟩
    exact hx (List.cons_prefix_cons.mp hc.1).1.symm

theorem Memory.observeN_at_start (y : Int) (n : Nat) : ∀ (M : Memory) (z : Int),
    (M.observeN K [0] y n).count [0] z = M.count [0] z + if z = y then n else 0 := by
  induction n with
  | zero => intro M z; simp [Memory.observeN]
  | succ n ih =>
    intro M z
    rw [Memory.observeN, ih]
    by_cases hz : z = y
    · rw [Memory.observe_at K M _ _ ⟨hz, .self⟩, if_pos hz, if_pos hz]; omega
    · rw [Memory.observe_not K M _ _ (fun e => hz e.1), if_neg hz, if_neg hz]

theorem Memory.observeN_known (c : List Int) (y : Int) (n : Nat) : ∀ (M : Memory) {d : List Int},
    M.known d → (M.observeN K c y n).known d := by
  induction n with
  | zero => intro M d h; exact h
  | succ n ih => intro M d h; exact ih _ (.inl h)

/-- after an observation of `y` at a context, the context that follows ends with `y` -/
theorem Memory.observed_longest (hK : 2 ≤ K) (h0 : M.known []) (c : List Int) {y : Int} (hy : y ≠ 0) (n : Nat) :
    ∃ c', (M.observeN K c y (n + 1)).longest (y :: c) = y :: c' := by
  obtain ⟨k, hk⟩ : ∃ k, K - 1 = k + 1 := ⟨K - 2, by omega⟩
  have h1 : (M.observeN K c y (n + 1)).known (y :: c.take k) := by
    have h2 : (M.observe K c y).known ((y :: c).take (K - 1)) := Or.inr ⟨hy, c, .self, rfl⟩
    rw [hk, List.take_succ_cons] at h2
    exact Memory.observeN_known c y n (M.observe K c y) h2
  obtain ⟨_, l2, l3⟩ := (M.observeN K c y (n + 1)).longest_spec (Memory.observeN_known _ _ _ _ h0) (y :: c)
  have hp : y :: c.take k <+: y :: c := (List.prefix_cons_inj y).mpr (List.take_prefix _ _)
  have h2 := List.prefix_of_prefix_length_le hp l2 (l3 _ h1 hp)
  obtain ⟨e, he⟩ := h2
  exact ⟨c.take k ++ e, by rw [← he]; rfl⟩

/-- learning known characters after a context that ends with `x` -/
theorem Paired.learn (hK : 2 ≤ K) (n : Nat) {label : Int → Int} (cs : List Int)
    (ht : ∀ s ∈ cs, a.taught s = some (label s) ∧ a.typed s = label s ∧ label s ≠ 0) : ∀ {M : Memory} {S : Finset (Int × Int)} (x : Int) (c : List Int),
    Paired M S → M.known [] → a.taught 0 = some 0 →
    Paired (M.learn K a (n + 1) (x :: c) (cs ++ [0])) (S ∪ ((x :: cs.map label).zip (cs.map label ++ [0])).toFinset) ∧
      (x ≠ 0 → ∀ z, (M.learn K a (n + 1) (x :: c) (cs ++ [0])).count [0] z = M.count [0] z) := by
  induction cs with
  | nil =>
    intro M S x c h h0 he
    have e : M.learn K a (n + 1) (x :: c) ([] ++ [0]) = M.observeN K (x :: c) 0 (n + 1) := by
      simp [Memory.learn, Memory.learnOne, he]
    rw [e]
    refine ⟨?_, fun hx z => Memory.observeN_start hx _ _ _ _ _⟩
    have := Paired.observeN (K := K) x 0 c n h
    rw [Finset.insert_eq, Finset.union_comm] at this
    simpa using this
  | cons s cs ih =>
    intro M S x c h h0 he
    obtain ⟨t1, t2, t3⟩ := ht s (by simp)
    obtain ⟨c', hc'⟩ := Memory.observed_longest (M := M) hK h0 (x :: c) t3 n
    have e : M.learn K a (n + 1) (x :: c) (s :: cs ++ [0]) =
        (M.observeN K (x :: c) (label s) (n + 1)).learn K a (n + 1) (label s :: c') (cs ++ [0]) := by
      rw [List.cons_append, Memory.learn]
      simp only [Memory.learnOne, t1, t2, hc']
    obtain ⟨k1, k2⟩ := ih (fun r hr => ht r (by simp [hr])) (label s) c' (Paired.observeN (K := K) x (label s) c n h)
      (Memory.observeN_known _ _ _ _ h0) he
    rw [e]
    refine ⟨?_, fun hx z => (k2 t3 z).trans (Memory.observeN_start hx _ _ _ _ _)⟩
    have e2 : S ∪ ((x :: (s :: cs).map label).zip ((s :: cs).map label ++ [0])).toFinset =
        insert (x, label s) S ∪ ((label s :: cs.map label).zip (cs.map label ++ [0])).toFinset := by
      ext p
      simp only [List.map_cons, List.cons_append, List.zip_cons_cons, List.toFinset_cons, Finset.mem_union, Finset.mem_insert]
      tauto
    rw [e2]
    exact k1

/-- What a memory that knew nothing holds of the two shortest contexts after learning one text of known characters, with its end,
`n` times (`n + 1` in the place of the number of times). -/
theorem blank_learn (hK : 2 ≤ K) (n : Nat) {label : Int → Int} (cs : List Int) (he : a.taught 0 = some 0)
    (ht : ∀ s ∈ cs, a.taught s = some (label s) ∧ a.typed s = label s ∧ label s ≠ 0) :
    (∀ y, (Memory.blank.learn K a (n + 1) [0] (cs ++ [0])).count [] y = 1 + predecessors (cs.map label) y) ∧
    ∀ y, (Memory.blank.learn K a (n + 1) [0] (cs ++ [0])).count [0] y = if y = (cs.map label ++ [0]).headD 0 then n + 1 else 0 := by
  refine ⟨fun y => ?_, fun y => ?_⟩
  · have := (Paired.learn hK n cs ht 0 [] .blank (Or.inl rfl) he).1.empty y
    rw [this, Finset.empty_union]
    rfl
  · cases cs with
    | nil =>
      have e : Memory.blank.learn K a (n + 1) [0] ([] ++ [0]) = Memory.blank.observeN K [0] 0 (n + 1) := by
        simp [Memory.learn, Memory.learnOne, he]
      rw [e, Memory.observeN_at_start]
      simp [Memory.blank]
    | cons s cs =>
      obtain ⟨t1, t2, t3⟩ := ht s (by simp)
      obtain ⟨c', hc'⟩ := Memory.observed_longest (M := Memory.blank) hK (Or.inl rfl) [0] t3 n
      have e : Memory.blank.learn K a (n + 1) [0] (s :: cs ++ [0]) =
          (Memory.blank.observeN K [0] (label s) (n + 1)).learn K a (n + 1) (label s :: c') (cs ++ [0]) := by
        rw [List.cons_append, Memory.learn]
        simp only [Memory.learnOne, t1, t2, hc']
      rw [e, (Paired.learn hK n cs (fun r hr => ht r (by simp [hr])) (label s) c' (Paired.observeN (K := K) 0 (label s) [] n .blank)
        (Memory.observeN_known _ _ _ _ (Or.inl rfl)) he).2 t3, Memory.observeN_at_start]
      simp [Memory.blank]

open scoped BigOperators in
theorem blank_prob {alpha beta : ℝ} (hb0 : 0 ≤ beta) (hb1 : beta ≤ 1) (hK : 2 ≤ K) {label : Int → Int} {cs : List Int} (he : a.taught 0 = some 0)
    (ht : ∀ s ∈ cs, a.taught s = some (label s) ∧ a.typed s = label s ∧ 0 < label s ∧ label s ≤ V) {y : Nat} {p : ℝ}
    (hp : (Memory.blank.learn K a 1 [0] (cs ++ [0])).Prob alpha beta V y [0] p) : p = firstChance alpha beta V (cs.map label) y := by
  obtain ⟨h1, h2⟩ := blank_learn (n := 0) hK cs he (fun s hs => ⟨(ht s hs).1, (ht s hs).2.1, by have := (ht s hs).2.2.1; omega⟩)
  rw [Nat.zero_add] at h1 h2
  obtain ⟨f, hf0, hf⟩ : ∃ f : Nat, f ≤ V ∧ (cs.map label ++ [0]).headD 0 = (f : Int) := by
    cases cs with
    | nil => exact ⟨0, by omega, rfl⟩
    | cons s cs =>
      obtain ⟨_, _, t3, t4⟩ := ht s (by simp)
      exact ⟨(label s).toNat, by omega, by simp; omega⟩
  rw [hf] at h2
  have hc : ∀ z : Nat, (Memory.blank.learn K a 1 [0] (cs ++ [0])).count [0] z = if z = f then 1 else 0 := fun z => by
    rw [h2]; simp only [Nat.cast_inj]
  have hnil : ∀ q, (Memory.blank.learn K a 1 [0] (cs ++ [0])).Prob alpha beta V y [] q →
      q = ((1 + predecessors (cs.map label) y : ℕ) : ℝ) / ∑ z ∈ Finset.range (V + 1), ((1 + predecessors (cs.map label) z : ℕ) : ℝ) := by
    intro q hq
    cases hq with
    | nil => simp only [h1]
    | unseen h => exact absurd rfl h
    | seen h => exact absurd rfl h
  cases hp with
  | unseen _ h0 _ =>
    have := h0 f hf0
    rw [hc, if_pos rfl] at this
    omega
  | seen _ _ hq =>
    rw [hnil _ hq, firstChance, hf]
    have e1 : ∑ z ∈ Finset.range (V + 1), (((Memory.blank.learn K a 1 [0] (cs ++ [0])).count [0] z : ℕ) : ℝ) = 1 := by
      simp only [hc]
      rw [Finset.sum_eq_single f (fun z _ hz => by rw [if_neg hz]; simp) (fun hf => absurd (Finset.mem_range.2 (by omega)) hf), if_pos rfl]
      simp
    have e2 : ((Finset.range (V + 1)).filter fun z => 0 < (Memory.blank.learn K a 1 [0] (cs ++ [0])).count [0] (z : Nat)) = {f} := by
      ext z
      rw [Finset.mem_filter, Finset.mem_range, Finset.mem_singleton, hc]
      constructor
      · rintro ⟨_, h⟩
        by_contra hz
        rw [if_neg hz] at h
        omega
      · rintro rfl
        rw [if_pos rfl]; omega
    rw [e1, e2, hc]
    simp only [Nat.cast_inj, Finset.card_singleton]
    by_cases hy : y = f
    · rw [if_pos hy, if_pos hy, max_eq_left (by simp; linarith)]
      simp
    · rw [if_neg hy, if_neg hy, max_eq_right (by simp; linarith)]
      simp

end Mozolm.Ppm
