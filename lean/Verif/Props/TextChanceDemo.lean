import Verif.Props.TextChance
import Verif.Props.PairChanceDemo

/-! # C100 and C101 at work: a bigram automaton over "a" and "b" -/

namespace Mozolm.System.TextDemo
open Mozolm.Hub Mozolm.Server Mozolm.NGram XR PairsDemo

/-- State 0 knows no context: "a" and "b" once in four times each, the end once in two. State 1 is after "a": "a" once in
two times, else the backoff (2/3). -/
noncomputable def fst : Fst XR :=
  { start := 0
    states := [ { final := costOf (1/2), arcs := [⟨1, costOf (1/4), 1⟩, ⟨2, costOf (1/4), 0⟩] },
                { final := XR.pinf, arcs := [⟨0, costOf (2/3), 0⟩, ⟨1, costOf (1/2), 1⟩] } ] }

noncomputable def model : NGram.Model XR :=
  { fst, symbols := [(0, [60]), (1, [97]), (2, [98])], oov := -1, unigram := 0, hiOrder := 2 }

noncomputable def src : NGram.Source XR :=
  { noFile := false, fst := some fst, inSymbols := some [(0, [60]), (1, [97]), (2, [98])], noVocabulary := true, vocabulary := none
    canonical := fun _ => true, normalized := fun _ => true, maxOrder := fun _ => 2 }

theorem read_src : NGram.read Arith.xr src = .ok (some model) := by
  simp [NGram.read, src, symbolTable, getBackoff, Fst.state?, fst, model, unknownSymbol, SymbolTable.findLabel]

theorem backoff0 {w : XR} {t : Nat} : ¬ IsBackoff fst 0 w t := by
  rintro ⟨st, pre, post, h1, h2, h3, _⟩
  have hm : (⟨0, w, t⟩ : Arc XR) ∈ st.arcs := by rw [h2]; simp
  cases h1
  simp at hm

theorem backoff1 {w : XR} {t : Nat} (h : IsBackoff fst 1 w t) : w = costOf (2/3) ∧ t = 0 := by
  obtain ⟨st, pre, post, h1, h2, h3, _⟩ := h
  have hm : (⟨0, w, t⟩ : Arc XR) ∈ st.arcs := by rw [h2]; simp
  cases h1
  simp at hm
  exact hm

theorem closed : Closed fst := ⟨by simp [fst], by simp [fst]⟩

theorem acyclic : Acyclic fst := by
  refine ⟨id, ?_⟩
  intro s w t h
  match s, h with
  | 0, h => exact absurd h backoff0
  | 1, h => rw [(backoff1 h).2]; decide
  | n + 2, ⟨st, _, _, h1, _⟩ => simp [fst] at h1

theorem half : (0 : ℝ) ≤ 1/2 := by norm_num
theorem quarter : (0 : ℝ) ≤ 1/4 := by norm_num
theorem twothirds : (0 : ℝ) ≤ 2/3 := by norm_num

theorem weighted : Weighted fst := by
  intro st hst
  simp only [fst, List.mem_cons, List.not_mem_nil, or_false] at hst
  rcases hst with rfl | rfl
  · refine ⟨⟨_, half, rfl⟩, fun a ha => ?_⟩
    simp only [List.mem_cons, List.not_mem_nil, or_false] at ha
    rcases ha with rfl | rfl
    · exact ⟨_, quarter, rfl⟩
    · exact ⟨_, quarter, rfl⟩
  · refine ⟨⟨0, le_refl _, costOf_zero.symm⟩, fun a ha => ?_⟩
    simp only [List.mem_cons, List.not_mem_nil, or_false] at ha
    rcases ha with rfl | rfl
    · exact ⟨_, twothirds, rfl⟩
    · exact ⟨_, half, rfl⟩

theorem walk0 {ws : List XR} {t : Nat} (h : Walk fst 0 ws t) : ws = [] ∧ t = 0 := by
  cases h with
  | here => exact ⟨rfl, rfl⟩
  | step hb _ => exact absurd hb backoff0

theorem walk1 {ws : List XR} {t : Nat} (h : Walk fst 1 ws t) : ws = [] ∧ t = 1 ∨ ws = [costOf (2/3)] ∧ t = 0 := by
  cases h with
  | here => exact .inl ⟨rfl, rfl⟩
  | step hb hw =>
    obtain ⟨rfl, rfl⟩ := backoff1 hb
    obtain ⟨rfl, rfl⟩ := walk0 hw
    exact .inr ⟨rfl, rfl⟩

theorem step1 : IsBackoff fst 1 (costOf (2/3)) 0 := ⟨_, [], _, rfl, rfl, by decide, by simp⟩

theorem here {s : Nat} {P : Nat → Prop} (hs : s < 2) : Before fst s s P := by
  intro ws ws' u h h' hne
  match s, hs with
  | 0, _ => obtain ⟨_, rfl⟩ := walk0 h; exact absurd (walk0 h').1 hne
  | 1, _ =>
    rcases walk1 h with ⟨_, rfl⟩ | ⟨_, rfl⟩
    · rcases walk1 h' with ⟨h1, _⟩ | ⟨_, h1⟩
      · exact absurd h1 hne
      · cases h1
    · cases (walk0 h').2

theorem before1 {P : Nat → Prop} (h : P 1) : Before fst 1 0 P := by
  intro ws ws' u h1 h2 hne
  rcases walk1 h1 with ⟨_, rfl⟩ | ⟨_, rfl⟩
  · exact h
  · exact absurd (walk0 h2).1 hne

theorem long0a : Longest fst 0 1 [] (costOf (1/4)) 1 := ⟨0, .here 0, ⟨_, [], _, rfl, rfl, by simp⟩, here (by decide)⟩
theorem long0b : Longest fst 0 2 [] (costOf (1/4)) 0 := ⟨0, .here 0, ⟨_, [_], _, rfl, rfl, by simp⟩, here (by decide)⟩
theorem long1a : Longest fst 1 1 [] (costOf (1/2)) 1 := ⟨1, .here 1, ⟨_, [_], _, rfl, rfl, by simp⟩, here (by decide)⟩
theorem long1b : Longest fst 1 2 [costOf (2/3)] (costOf (1/4)) 0 := by
  refine ⟨0, .step step1 (.here 0), ⟨_, [_], _, rfl, rfl, by simp⟩, before1 ?_⟩
  intro st hst a ha
  cases hst
  simp only [List.mem_cons, List.not_mem_nil, or_false] at ha
  rcases ha with rfl | rfl <;> decide

theorem weights0 : Weights model 0 [1/2, 1/4, 1/4] := by
  have h1 : Worth fst 0 0 ([1/2] : List ℝ).prod := .ends (ws := []) (.here 0) rfl (fun h => by have := costOf_eq_pinf.1 h; norm_num at this) (here (by decide))
    (.cons ⟨half, rfl⟩ .nil)
  have h2 : Worth fst 0 1 ([1/4] : List ℝ).prod := .found (by decide) long0a (.cons ⟨quarter, rfl⟩ .nil)
  have h3 : Worth fst 0 2 ([1/4] : List ℝ).prod := .found (by decide) long0b (.cons ⟨quarter, rfl⟩ .nil)
  simp only [List.prod_cons, List.prod_nil, mul_one] at h1 h2 h3
  exact .cons h1 (.cons h2 (.cons h3 .nil))

theorem weights1 : Weights model 1 [1/3, 1/2, 1/6] := by
  have h1 : Worth fst 1 0 ([2/3, 1/2] : List ℝ).prod := by
    refine .ends (.step step1 (.here 0)) rfl (fun h => by have := costOf_eq_pinf.1 h; norm_num at this) (before1 ?_)
      (.cons ⟨twothirds, rfl⟩ (.cons ⟨half, rfl⟩ .nil))
    intro x hx; cases hx; rfl
  have h2 : Worth fst 1 1 ([1/2] : List ℝ).prod := .found (by decide) long1a (.cons ⟨half, rfl⟩ .nil)
  have h3 : Worth fst 1 2 ([2/3, 1/4] : List ℝ).prod := .found (by decide) long1b (.cons ⟨twothirds, rfl⟩ (.cons ⟨quarter, rfl⟩ .nil))
  norm_num at h1 h2 h3
  exact .cons h1 (.cons h2 (.cons h3 .nil))

theorem telling : Telling model where
  weighted := weighted
  epsilon := ⟨_, _, rfl⟩
  labels := by decide
  strings := by decide
  named := by decide
  written := by decide
  apart := by decide
  follows := by
    intro s hs ps hw
    have hs' : s < 2 := hs
    match s, hs' with
    | 0, _ => rw [weights_unique hw weights0]; norm_num
    | 1, _ => rw [weights_unique hw weights1]; norm_num

theorem moves_a : Moves enc model 0 (dec [97]) 1 := .cons (by decide) (.found (l := 1) (.inl (by decide)) (by decide) long0a) .nil
theorem moves_b : Moves enc model 1 (dec [98]) 0 := .cons (by decide) (.found (l := 2) (.inl (by decide)) (by decide) long1b) .nil

/-- "a" and then "b": 1/4, and 1/6 after backing off. -/
theorem chain : Chain enc dec model 0 [(1, [97]), (2, [98])] (1/24) 0 := by
  have s1 : Share model 0 1 (1/4) := by
    refine ⟨_, 1/4, weights0, ?_, by norm_num⟩
    cases weights0 with | cons _ h => cases h with | cons h _ => exact h
  have s2 : Share model 1 2 (1/6) := by
    refine ⟨_, 1/6, weights1, ?_, by norm_num⟩
    cases weights1 with | cons _ h => cases h with | cons _ h => cases h with | cons h _ => exact h
  have := Chain.cons (decode := dec) (e := (1, [97])) (by decide) s1 moves_a (.cons (e := (2, [98])) (by decide) s2 moves_b .nil)
  norm_num at this ⊢
  exact this

theorem ending : Share model 0 0 (1/2) := by
  refine ⟨_, 1/2, weights0, ?_, by norm_num⟩
  cases weights0 with | cons h _ => exact h

/-- C101 (and C100, from which it follows): after a request about "a", generation begins with "ab" once in 24 times and is
exactly "ab" once in 48 times. -/
example : ∃ (fuel : Nat) (h0 h : Hub Arith.xr (Component Arith.xr)),
    initializeModels (env Arith.xr enc fuel id id) [.char model] cfg = .ok (some h0) ∧
    serveAll (env Arith.xr enc fuel id id) h0 [.getLMScores [97] 0] = .ok h ∧
    uniforms {u | ∃ g w, Client.randGen (A := Arith.xr) (Client.Env.xr falling dec) (service (env Arith.xr enc fuel id id) dec) 128
      ⟨(h, fun i => .fin (u i)), []⟩ [] = .ok (g, w) ∧ [97, 98] <+: g.text} = ENNReal.ofReal (1/24) ∧
    uniforms {u | ∃ w, Client.randGen (A := Arith.xr) (Client.Env.xr falling dec) (service (env Arith.xr enc fuel id id) dec) 128
      ⟨(h, fun i => .fin (u i)), []⟩ [] = .ok (⟨true, [97, 98]⟩, w)} = ENNReal.ofReal (1/48) := by
  have hs : ∀ x ∈ [Component.char (A := Arith.xr) model], Served enc x := by
    intro x hx
    simp only [List.mem_singleton] at hx
    subst hx
    exact .char read_src closed acyclic
  obtain ⟨b1, hb1⟩ := C101_generation (encode := enc) (sort := falling) (decode := dec) (m := model) (ms := []) hs (by simp) telling
    (fun sym c hc => by simp [dec] at hc; obtain ⟨b, _, rfl⟩ := hc; exact Int.natCast_nonneg b) rfl (fun l => (falling_sorts l).1)
  obtain ⟨b2, hb2⟩ := C72_service hs (by decide)
  have hf : (env Arith.xr enc (max b1 b2) id id).Fair := ⟨fun _ => .refl _, fun _ => .refl _⟩
  obtain ⟨h0, hr0⟩ : ∃ h0, initializeModels (env Arith.xr enc (max b1 b2) id id) [.char model] cfg = .ok (some h0) :=
    ⟨_, by rw [initialize_eq hf, if_neg (by simp [cfg])]⟩
  obtain ⟨h, hr⟩ : ∃ h, serveAll (env Arith.xr enc (max b1 b2) id id) h0 [.getLMScores [97] 0] = .ok h := by
    obtain ⟨rep, h, e, _⟩ := (hb2 _ (le_max_right _ _) _ _ hf cfg [] h0 (by simp [cfg]) ⟨h0, hr0, rfl⟩).2 [97] 0
    exact ⟨h, by simp only [serveAll, serve, e, ok_bind]⟩
  have := hb1 _ (le_max_left _ _) _ _ hf cfg h0 [.getLMScores [97] 0] h (by simp [cfg]) (by decide) hr0 hr (by intro r hr; simp at hr; subst hr; intro c hc; simp [Request.text] at hc; omega)
    [] 0 [(1, [97]), (2, [98])] (1/24) 0 .nil chain (by decide) (by decide) [] 128 (by omega)
  refine ⟨_, h0, h, hr0, hr, this.1, ?_⟩
  have e := this.2 (by decide) (1/2) ending
  norm_num at e ⊢
  exact e

end Mozolm.System.TextDemo
