import Verif.Bigram.ThreadSpec
import Verif.Bigram.Reach

/-! # Bigram threads: the invariant -/

namespace Mozolm.Bigram.Threads

theorem bump_split (m : Model) (i j : Nat) (n : Int) :
    bump m i j n = bumpNorm m i n >>= fun m' => bumpCount m' i j n := by
  unfold bump bumpNorm bumpCount
  cases hn : m.norm[i]? with
  | none => rfl
  | some x =>
    cases hc : m.counts[i]? with
    | none => simp [hc]
    | some row =>
      cases hr : row[j]? with
      | none => simp [hc, hr]
      | some c => simp [hc, hr]

/-- the update run alone -/
def upd (m : Model) (u : Update) : Except Fault Model := run m [u]

theorem upd_eq (m : Model) (u : Update) :
    upd m u = if u.count ≤ 0 then .ok m else updateLoop m u.count (m.fix u.state) u.syms := by
  unfold upd run updateLMCounts
  split
  · rfl
  · cases updateLoop m u.count (m.fix u.state) u.syms <;> rfl

theorem run_append {us vs : List Update} : ∀ {m m' : Model}, run m us = .ok m' →
    run m (us ++ vs) = run m' vs := by
  induction us with
  | nil => intro m m' h; cases h; rfl
  | cons u us ih =>
    intro m m' h
    simp only [run, List.cons_append] at h ⊢
    obtain ⟨r, e, h⟩ := bind_ok.1 h
    rw [e]
    exact ih h

/-! ## What the values read determine -/

theorem pairUp_spec {m : Model} {st : Nat} {row : List Int} {nrm : Int}
    (hr : m.counts[st]? = some row) (hn : m.norm[st]? = some nrm) :
    ∀ {L : List Nat} {vals : List Int},
      vals.map some = (L.flatMap fun j => [Loc.count st j, Loc.norm st]).map (value m) →
      ∃ xs : List Int, xs.map some = L.map (fun j => row[j]?) ∧ pairUp vals = xs.map fun x => (x, nrm) := by
  intro L
  induction L with
  | nil =>
    intro vals h
    cases vals with
    | nil => exact ⟨[], rfl, rfl⟩
    | cons => simp at h
  | cons j L ih =>
    intro vals h
    match vals, h with
    | [], h => simp at h
    | [a], h => simp at h
    | a :: b :: vals, h =>
      simp only [List.map_cons, List.flatMap_cons, List.cons_append, List.nil_append, List.cons.injEq,
        value, hr, hn, Option.bind_some] at h
      obtain ⟨h1, h2, h3⟩ := h
      obtain ⟨xs, e1, e2⟩ := ih h3
      refine ⟨a :: xs, by simp [h1, e1], ?_⟩
      have h2 : b = nrm := by simpa using h2
      simp [pairUp, e2, h2]

theorem extract_of_reads {A : Arith} {enc : Int → Str} {m : Model} (w : WF m) {s : Int}
    {got : List Int} (h : got.map some = (plan m (.extract s)).map (value m)) :
    extractLMScores A enc m s = .ok (scoresOf A enc m.utf8 got) := by
  have hlt := w.fix_lt s
  obtain ⟨row, hr⟩ := exists_getElem?_of_lt (l := m.counts) (i := m.fix s)
    (by rw [w.rowsLen]; exact hlt)
  have hrl := w.rowLen row (List.mem_of_getElem? hr)
  have hn := w.sum _ row hr
  simp only [plan, hr, Option.getD_some, List.map_cons, value, hn] at h
  cases got with
  | nil => simp at h
  | cons nrm rest =>
    simp only [List.map_cons, List.cons.injEq, Option.some.injEq] at h
    obtain ⟨rfl, h⟩ := h
    obtain ⟨xs, e1, e2⟩ := pairUp_spec hr hn h
    have hxs : xs = row := by
      have hl := congrArg List.length e1
      simp only [List.length_map, List.length_range] at hl
      apply List.ext_getElem?
      intro k
      have := congrArg (fun l => l[k]?) e1
      simp only [List.getElem?_map] at this
      rcases Nat.lt_or_ge k row.length with hk | hk
      · obtain ⟨x, hx⟩ := exists_getElem?_of_lt (l := xs) (i := k) (by omega)
        rw [hx, List.getElem?_range hk] at this
        simp only [Option.map_some, Option.some.injEq] at this
        rw [hx]; exact this
      · rw [List.getElem?_eq_none hk, List.getElem?_eq_none (by omega)]
    subst hxs
    unfold extractLMScores
    simp only [hn, hr]
    rw [scoreLoop_eq (us := m.utf8) A enc m xs.sum xs (i := 0) rfl hrl.symm]
    simp only [ok_bind, scoresOf, e2]
    congr 2
    · rw [List.map_fst_zip (by simp [hrl]), List.map_map]
      apply List.ext_getElem?
      intro k
      simp only [List.getElem?_map, List.getElem?_zip_eq_some, Function.comp_def]
      rcases Nat.lt_or_ge k m.utf8.length with hk | hk
      · have h1 : k < xs.length := by omega
        simp [List.zip, List.getElem?_zipWith, hk, h1]
      · have h1 : xs.length ≤ k := by omega
        simp [List.zip, List.getElem?_zipWith, hk]
    · rw [List.map_snd_zip (by simp [hrl]), List.map_map]
      apply List.ext_getElem?
      intro k
      simp only [List.getElem?_map, Function.comp_def]
      rcases Nat.lt_or_ge k m.utf8.length with hk | hk
      · have h1 : k < xs.length := by omega
        simp [List.zip, List.getElem?_zipWith, hk, h1]
      · have h1 : xs.length ≤ k := by omega
        simp [List.zip, List.getElem?_zipWith, hk, h1]

theorem score_of_reads {A : Arith} {m : Model} {s c : Int} {got : List Int}
    (hcov : covered m s c = true) (h : got.map some = (plan m (.score s c)).map (value m)) :
    symLMScore A m s c = .ok (costOfReads A got) := by
  unfold covered at hcov
  unfold symLMScore
  simp only
  rw [if_pos hcov]
  simp only [plan, List.map_cons, List.map_nil, value] at h
  match got, h with
  | [a, b], h =>
    simp only [List.map_cons, List.map_nil, List.cons.injEq, and_true] at h
    obtain ⟨h1, h2⟩ := h
    cases hr : m.counts[m.fix s]? with
    | none => rw [hr] at h1; simp at h1
    | some row =>
      rw [hr] at h1
      simp only [Option.bind_some] at h1
      simp only [← h2, ← h1]
      rfl
  | [], h => simp at h
  | [a], h => simp at h
  | a :: b :: c :: l, h => simp at h

theorem score_uncovered {A : Arith} {m : Model} {s c : Int} (hcov : covered m s c = false) :
    symLMScore A m s c = .ok (costOfReads A []) := by
  unfold covered at hcov
  unfold symLMScore
  simp only
  rw [if_neg (by rw [hcov]; simp)]
  rfl

end Mozolm.Bigram.Threads
