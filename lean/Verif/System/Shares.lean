import Verif.Props.System
import Verif.Scores.Rounding
import Verif.RoundingLemmas
import Verif.Props.BigramNumeric
import Verif.Hub.Sorted

/-! # The replies of all models are shares of a total -/

namespace Mozolm

/-- The probabilities are shares: of a total of costs, or of a total of counts; or there are none. -/
inductive Shares (A : Arith) : List A.D → Prop
  | none : Shares A []
  | costs {c : A.C} {cs vs : List A.C} : vs.Perm (c :: cs) →
      Shares A (vs.map fun v => A.prob (A.over v (Scores.negLogSumFrom A c cs)))
  | counts {row : List Int} : row ≠ [] → (∀ c ∈ row, 1 ≤ c) →
      Shares A (row.map fun c => A.ddiv (A.ofInt c) (A.ofInt row.sum))

theorem Shares.softmax {A : Arith} {raw costs : List A.C} (h : Scores.softmaxRenormalize A raw = .ok costs) :
    Shares A (costs.map A.prob) := by
  cases raw with
  | nil => cases h
  | cons c cs =>
    simp only [Scores.softmaxRenormalize, Except.ok.injEq] at h
    rw [← h, List.map_map]
    exact .costs (.refl _)

namespace Ppm

/-- the vectors of a state hold normalised costs -/
theorem WF.normal {A : Arith} {Ok : A.C → Prop} {beta : A.D} (L : CountLaws A Ok beta) {f : Fst A.C} {ord : Nat → Nat} {mo : Int}
    {V u : Nat} (h : WF A Ok f ord mo V u) (alpha : A.D) :
    ∀ s, s < f.states.length → ∀ d, Ideal A f alpha beta s d → ∃ raw, Scores.softmaxRenormalize A raw = .ok d.costs := by
  have key : ∀ k s, ord s = k → s < f.states.length → ∃ d, Ideal A f alpha beta s d ∧ d.Sized (V + 1) ∧
      ∃ raw, Scores.softmaxRenormalize A raw = .ok d.costs := by
    intro k
    induction k with
    | zero =>
      intro s hk hs
      have hu : s = u := by
        apply Classical.byContradiction
        intro hu
        obtain ⟨b, _, _, ho⟩ := h.backoff_node hs hu
        omega
      obtain ⟨st, hst, _⟩ := h.exists_state hs
      obtain ⟨d, hd, hsz, hc⟩ := stateData_spec L h hst alpha (bd := Data.empty A) (fun e => absurd hu e)
      have hb : backoff f s = none := by rw [hu]; exact h.backoff_u
      rw [hb] at hd
      refine ⟨d, .unigram hb hd, hsz, ?_⟩
      rcases hc with ⟨e, _⟩ | ⟨hbl, _⟩
      · exact absurd hu e
      · obtain ⟨raw, hr, _⟩ := hbl.costs
        exact ⟨raw, hr⟩
    | succ k ih =>
      intro s hk hs
      have hu : s ≠ u := by intro e; rw [e, h.ord_u] at hk; cases hk
      obtain ⟨b, hb, hbl, ho⟩ := h.backoff_node hs hu
      obtain ⟨bd, hbd, hbsz, hbn⟩ := ih b (by omega) hbl
      obtain ⟨st, hst, _⟩ := h.exists_state hs
      obtain ⟨d, hd, hsz, hc⟩ := stateData_spec L h hst alpha (fun _ => hbsz)
      rw [hb] at hd
      refine ⟨d, .node hb hbd hd, hsz, ?_⟩
      rcases hc with ⟨_, _, e⟩ | ⟨hbl, _⟩
      · rw [e]; exact hbn
      · obtain ⟨raw, hr, _⟩ := hbl.costs
        exact ⟨raw, hr⟩
  intro s hs d hd
  obtain ⟨d', hd', _, hn⟩ := key _ s rfl hs
  rw [hd.unique hd']
  exact hn

end Ppm

namespace System

variable {A : Arith} {encode : Int → Str} {fuel : Nat}

theorem extract_shares {m m' : Component A} {s : Int} {r : LMScores A.D} (hl : live encode fuel m) (ho : ok m s)
    (he : extract encode fuel m s = (some r, m')) : Shares A r.probs := by
  cases m with
  | bigram m =>
    have w : Bigram.WF m := hl
    have hlt := w.fix_lt s
    obtain ⟨row, hr⟩ := exists_getElem?_of_lt (l := m.counts) (i := m.fix s) (by rw [w.rowsLen]; exact hlt)
    have hrm := List.mem_of_getElem? hr
    have hrl := w.rowLen row hrm
    have hn := w.sum _ row hr
    have hne : row ≠ [] := by
      intro h0; rw [h0] at hrl; have := w.pos_len; simp at hrl; omega
    have hx : Bigram.extractLMScores A encode m s = .ok ⟨m.utf8.map encode,
        row.map (fun c => A.ddiv (A.ofInt c) (A.ofInt row.sum)), A.ofInt row.sum⟩ := by
      unfold Bigram.extractLMScores
      simp only [hn, hr]
      rw [Bigram.scoreLoop_eq (us := m.utf8) A encode m row.sum row (i := 0) rfl hrl.symm]
      simp only [ok_bind]
      congr 2
      · rw [List.map_fst_zip]; simp [hrl]
      · rw [List.map_snd_zip (by simp [hrl])]
    simp only [extract, hx, settle, Prod.mk.injEq, Option.some.injEq] at he
    rw [← he.1]
    exact .counts hne fun c hc => (w.pos row hrm c hc).1
  | ppm m =>
    obtain ⟨Ok, ord, V, u, h⟩ := hl
    obtain ⟨h0, h1⟩ := ho
    obtain ⟨s, rfl⟩ : ∃ n : Nat, s = n := ⟨_, toNat_eq h0⟩
    have hs : s < m.core.fst.states.length := by omega
    obtain ⟨d, hd, hsz⟩ := h.wf.ideal h.laws m.alpha s hs
    obtain ⟨raw, hraw⟩ := h.wf.normal h.laws m.alpha s hs d hd
    obtain ⟨r', hr, _, hp, hsy⟩ := Ppm.fill_ok hsz m.symbols
    obtain ⟨m'', e1, e2, e3⟩ := Ppm.extract_query (g := m.sig) h.laws h.wf hs hd hr m rfl h.cache
    simp only [extract, e1, settle, Prod.mk.injEq, Option.some.injEq] at he
    rw [← he.1, hp]
    exact .softmax hraw
  | char m =>
    simp only [extract] at he
    cases hx : NGram.extractLMScores (A := A) fuel m s with
    | error f => rw [hx] at he; simp [settle] at he
    | ok r' =>
      rw [hx] at he
      simp only [settle, Prod.mk.injEq, Option.some.injEq] at he
      unfold NGram.extractLMScores at hx
      obtain ⟨costs, _, hx⟩ := bind_ok.1 hx
      obtain ⟨nrm, hn, hx⟩ := bind_ok.1 hx
      cases hx
      rw [← he.1]
      exact .softmax hn
  | word m =>
    simp only [extract] at he
    cases hx : Word.extractLMScores A fuel m s (Word.noScores A) with
    | error f => rw [hx] at he; simp [settle] at he
    | ok r' =>
      rw [hx] at he
      simp only [settle, Prod.mk.injEq] at he
      obtain ⟨b, q, c⟩ := r'
      obtain ⟨he, _⟩ := he
      cases b with
      | false => simp at he
      | true =>
        simp only [if_true, Option.some.injEq] at he
        subst he
        unfold Word.extractLMScores at hx
        obtain ⟨ce, _, hx⟩ := bind_ok.1 hx
        split at hx
        · cases hx
          exact .none
        · obtain ⟨x, _, hx⟩ := bind_ok.1 hx
          unfold Word.scoresAt at hx
          split at hx
          · cases hx
          · split at hx
            · cases hx
            · obtain ⟨e, _, hx⟩ := bind_ok.1 hx
              split at hx
              · obtain ⟨c1, _, hx⟩ := bind_ok.1 hx
                obtain ⟨raw, _, hx⟩ := bind_ok.1 hx
                obtain ⟨nrm, hn, hx⟩ := bind_ok.1 hx
                cases hx
                exact .softmax hn
              · cases hx
  | overflow => simp [extract] at he
  | crashed f => simp [extract] at he

end System

namespace Hub

variable {A : Arith} {σ : Type} {env : Env A σ}

theorem extractMixture_shares (env : Env A σ) (acc : List (Str × A.C)) (nrm : A.D) : Shares A (extractMixture env acc nrm).probs := by
  unfold extractMixture
  cases hv : env.orderV acc with
  | nil => exact .none
  | cons v rest =>
    simp only
    have := (sortValues_perm (v :: rest)).map Prod.snd
    have h := Shares.costs (A := A) this
    rw [List.map_map] at h
    exact h

theorem extract_shares {live : σ → Prop} {ok : σ → Int → Prop} {h h' : Hub A σ} {s : Int} {r : LMScores A.D}
    (ho : Own live ok h)
    (hc : ∀ m m' s r, live m → ok m s → env.extract m s = (some r, m') → Shares A r.probs)
    (he : extractLMScores env h s = .ok (some r, h')) : Shares A r.probs := by
  unfold extractLMScores at he
  split at he
  · cases he
  · split at he
    · cases he
    · next st hst =>
      split at he
      · split at he
        · cases he
        · next m ms hms =>
          simp only [Except.ok.injEq, Prod.mk.injEq] at he
          obtain ⟨a, b⟩ := ho.at hst 0 m (by rw [hms]; rfl)
          exact hc m _ _ r a b (Prod.ext he.1 rfl)
      · obtain ⟨ws, _, he⟩ := bind_ok.1 he
        obtain ⟨q, _, he⟩ := bind_ok.1 he
        split at he
        · cases he
        · cases he
          exact extractMixture_shares env _ _

end Hub
end Mozolm
