import Verif.Props.PpmTrain

/-!
# The hypotheses of C67 to C69 can be met

A counter that keeps its contract on every text, and a text trained with it.
-/

namespace Mozolm.Ppm
open XR

namespace TrainDemo
noncomputable section
open Classical

/-- all contexts -/
def contextsOf (order : Nat) (ws : List (List Int)) : List (List Int) :=
  ((positions ws).flatMap fun p => (List.range order).map fun k => p.1.take k).dedup

theorem mem_contextsOf {order : Nat} {ws : List (List Int)} {c : List Int} : c ∈ contextsOf order ws ↔ IsContext order ws c := by
  unfold contextsOf IsContext
  rw [List.mem_dedup, List.mem_flatMap]
  constructor
  · rintro ⟨p, hp, hc⟩
    obtain ⟨k, hk, rfl⟩ := List.mem_map.mp hc
    rw [List.mem_range] at hk
    exact ⟨by rw [List.length_take]; omega, p, hp, List.take_prefix _ _⟩
  · rintro ⟨h1, p, hp, hpre⟩
    exact ⟨p, hp, List.mem_map.mpr ⟨c.length, List.mem_range.mpr h1, (List.prefix_iff_eq_take.mp hpre).symm⟩⟩

/-- the arcs of a context -/
def arcsOf (order : Nat) (ws : List (List Int)) (c : List Int) : List (Arc XR) :=
  (if c = [] then [] else [⟨0, costOf (occurrencesAll ws c), (contextsOf order ws).idxOf c.dropLast⟩]) ++
  ((((positions ws).map Prod.snd).dedup.filter fun y => decide (0 < y ∧ 0 < occurrences ws c y)).map fun y =>
    ⟨y, costOf (occurrences ws c y), (contextsOf order ws).idxOf ((y :: c).take (order - 1))⟩)

/-- a counter -/
def countNGrams (order : Nat) (ws : List (List Int)) : Fst XR :=
  { start := (contextsOf order ws).idxOf (([0] : List Int).take (order - 1))
    states := (contextsOf order ws).map fun c => ⟨costOf (occurrences ws c 0), arcsOf order ws c⟩ }

theorem idxOf_get {order : Nat} {ws : List (List Int)} {c : List Int} (h : IsContext order ws c) :
    (contextsOf order ws)[(contextsOf order ws).idxOf c]? = some c :=
  List.getElem?_idxOf (mem_contextsOf.mpr h)

/-- the contract of the counter is not empty: there is a counter that keeps it -/
theorem countNGrams_ok : CounterOk countNGrams := by
  intro order ws ho hne hpos
  have hnodup : (contextsOf order ws).Nodup := List.nodup_dedup _
  have hget : ∀ (s : Nat) (st : FState XR), (countNGrams order ws).states[s]? = some st →
      ∃ c, (contextsOf order ws)[s]? = some c ∧ st = ⟨costOf (occurrences ws c 0), arcsOf order ws c⟩ := by
    intro s st hst
    simp only [countNGrams, List.getElem?_map, Option.map_eq_some_iff] at hst
    obtain ⟨c, h1, h2⟩ := hst
    exact ⟨c, h1, h2.symm⟩
  refine ⟨contextsOf order ws, hnodup, fun c => mem_contextsOf, by simp [countNGrams], ?_, ?_, ?_, ?_⟩
  · exact idxOf_get (IsContext.start ho hne)
  · intro s c st hc hst
    obtain ⟨c', h1, rfl⟩ := hget s st hst
    rw [hc] at h1; injection h1 with h1; subst h1
    rfl
  · intro s st hst
    obtain ⟨c, h1, rfl⟩ := hget s st hst
    unfold arcsOf
    simp only
    rw [List.nodup_append]
    refine ⟨by split <;> simp, ?_, ?_⟩
    · refine List.Nodup.map_on ?_ ((List.nodup_dedup _).filter _)
      intro a _ b _ e
      exact congrArg Arc.label e
    · intro a ha b hb e
      subst e
      obtain ⟨y, hy, rfl⟩ := List.mem_map.mp hb
      have := (List.mem_filter.mp hy).2
      simp only [decide_eq_true_eq] at this
      split at ha
      · cases ha
      · have := congrArg Arc.label (List.mem_singleton.mp ha)
        simp only at this
        omega
  · intro s c st hc hst a
    obtain ⟨c', h1, rfl⟩ := hget s st hst
    rw [hc] at h1; injection h1 with h1; subst h1
    have hctx : IsContext order ws c := mem_contextsOf.mp (List.mem_of_getElem? hc)
    unfold arcsOf
    simp only [List.mem_append]
    refine or_congr ?_ ?_
    · constructor
      · intro ha
        split at ha
        · cases ha
        · rename_i hne
          rw [List.mem_singleton.mp ha]
          exact ⟨rfl, hne, idxOf_get (hctx.prefix (List.dropLast_prefix c)), rfl⟩
      · rintro ⟨h1, h2, h3, h4⟩
        rw [if_neg h2, List.mem_singleton]
        obtain ⟨al, aw, an⟩ := a
        simp only at h1 h3 h4
        rw [h1, h4, ctxs_inj hnodup h3 (idxOf_get (hctx.prefix (List.dropLast_prefix c)))]
    · constructor
      · intro ha
        obtain ⟨y, hy, rfl⟩ := List.mem_map.mp ha
        have := (List.mem_filter.mp hy).2
        simp only [decide_eq_true_eq] at this
        exact ⟨this.1, this.2, idxOf_get (hctx.next (by omega) this.2), rfl⟩
      · rintro ⟨h1, h2, h3, h4⟩
        refine List.mem_map.mpr ⟨a.label, List.mem_filter.mpr ⟨?_, by simpa using ⟨h1, h2⟩⟩, ?_⟩
        · rw [List.mem_dedup]
          obtain ⟨p, hp, _, hpy⟩ := occurrences_pos.mp h2
          exact List.mem_map.mpr ⟨p, hp, hpy⟩
        · obtain ⟨al, aw, an⟩ := a
          simp only at h1 h2 h3 h4
          simp only [Arc.mk.injEq, true_and]
          exact ⟨h4.symm, ctxs_inj hnodup (idxOf_get (hctx.next (by omega) h2)) h3⟩

/-- two lines, `ab` and `aab`, and an empty one -/
def text : List (List Str) := [[[97], [98]], [], [[97], [97], [98]]]

/-- bigrams -/
def options : Options XR :=
  { maxOrder := 2, alpha := .fin (1/2), beta := .fin (3/4), static := false, maxCache := 0, modelIsFst := false }

/-- a model is trained from the text -/
example : ∃ (m : Model Arith.xr) (ctxs : List (List Int)), readText countNGrams options (some text) none = pure m ∧
    Trained 2 (labelLines m.symbols text) ctxs m.chars m.core.fst ∧ Initial Arith.xr OkR options m := by
  obtain ⟨m, ctxs, h1, h2, _, _, _, _, h3⟩ := C67_training (o := options) (order := 2) (lines := text) countNGrams_ok
    (by simp [options]) (by simp [options]) (by simp [options]) (by omega) ⟨[[97], [98]], by simp [text], by simp⟩
    (by simp [text, epsilonName]) (vocab := none) (by simp)
  exact ⟨m, ctxs, h1, h2, h3⟩

/-- the trained model satisfies the hypotheses of C68 and C69: the scores of every context of the text, and the
context reached by typing -/
example : ∃ (m : Model Arith.xr) (ctxs : List (List Int)), readText countNGrams options (some text) none = pure m ∧
    (∀ c, IsContext 2 (labelLines m.symbols text) c → ∃ (s : Nat) (r : LMScores XR) (m' : Model Arith.xr), ctxs[s]? = some c ∧
      extractLMScores (s : Int) m = .ok (some r, m')) ∧
    (∀ syms, ∃ (t : Nat) (m' : Model Arith.xr) (d : List Int),
      contextState (fun c => [c.toNat]) syms (-1) m = .ok ((t : Int), m') ∧ ctxs[t]? = some d) := by
  obtain ⟨m, ctxs, h1, h2, _, _, h5, h6, h3⟩ := C67_training (o := options) (order := 2) (lines := text) countNGrams_ok
    (by simp [options]) (by simp [options]) (by simp [options]) (by omega) ⟨[[97], [98]], by simp [text], by simp⟩
    (by simp [text, epsilonName]) (vocab := none) (by simp)
  refine ⟨m, ctxs, h1, ?_, ?_⟩
  · intro c hc
    obtain ⟨s, _, r, m', k1, k2, _⟩ := C68_text_probabilities (o := options) (by simp [options]) (by simp [options]) h3 h6 h2 h5
      (.nil (encode := fun c => [c.toNat])) (.inr (by simp)) hc
    exact ⟨s, r, m', k1, k2⟩
  · intro syms
    obtain ⟨t, m', d, k1, k2, _⟩ := (C69_typed (o := options) (by simp [options]) (by simp [options]) h3 (by omega) h2 h5
      (.nil (encode := fun c => [c.toNat])) (.inr (by simp)) syms).1
    exact ⟨t, m', d, k1, k2⟩

/-- the text does not train with order one -/
example : readText countNGrams { options with maxOrder := 1 } (some text) none = .fail :=
  C67_order_one countNGrams_ok rfl ⟨[[97], [98]], by simp [text], by simp⟩ none

/-- the labels of the text: `a` is 1, `b` is 2 -/
def labels : List (List Int) := [[1, 2], [1, 1, 2]]

/-- the counts at work: `a` was seen once after `a` (label 1), `b` twice -/
example : occurrences labels [1] 1 = 1 ∧ occurrences labels [1] 2 = 2 ∧ occurrences labels [1] 0 = 0 ∧
    occurrences labels [] 1 = 3 := by decide

/-- the longest context after typing `ba` -/
example : LongestContext 2 labels [1, 2, 0] [1] := by
  refine ⟨⟨by simp, ([1, 0], 2), by simp [positions, positionsFrom, labels], by simp⟩, by simp, ?_⟩
  rintro e ⟨h, _⟩ _
  simp only [List.length_cons, List.length_nil]; omega

/-- a context of order two is not part of a longer one: its counts are the actual ones -/
example : trainedCount 2 labels [1] 2 = 2 := by
  rw [trainedCount_longest (by simp)]
  · decide
  · rintro ⟨d, ⟨h1, _⟩, h2, h3⟩
    have := congrArg List.length h3
    rw [List.length_dropLast] at this
    simp only [List.length_cons, List.length_nil] at this
    omega

/-- the empty context counts the different contexts: `b` was seen twice, but after `a` only (and one is added) -/
example : trainedCount 2 labels [] 2 = 2 := by
  rw [trainedCount_nil]
  have : {d ∈ Longer 2 labels [] | 0 < occurrences labels d 2} = {[1]} := by
    ext d
    simp only [Set.mem_ofPred_eq, Set.mem_singleton_iff]
    constructor
    · rintro ⟨⟨⟨h1, p, h2, h3⟩, h4, h5⟩, h6⟩
      obtain ⟨q, hq, hpre, hy⟩ := occurrences_pos.mp h6
      simp only [positions, positionsFrom, labels, List.flatMap_cons, List.flatMap_nil, List.append_nil, List.cons_append,
        List.nil_append, List.mem_cons, List.not_mem_nil, or_false] at hq
      match d, h4, h1 with
      | [x], _, _ =>
        rcases hq with rfl | rfl | rfl | rfl | rfl | rfl | rfl <;> simp_all
    · rintro rfl
      exact ⟨⟨⟨by simp, ([1, 0], 2), by simp [positions, positionsFrom, labels], by simp⟩, by simp, rfl⟩, by decide⟩
  rw [this]; simp

end
end TrainDemo
end Mozolm.Ppm
