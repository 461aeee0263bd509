import Verif.Hub.NumSpec
import Verif.Scores.Numeric
import Verif.Hub.Lemmas
import Mathlib.Tactic.Ring
import Mathlib.Tactic.Positivity
import Mathlib.Tactic.Linarith

/-! # Hub: mixture numerics at exact real arithmetic -/

namespace Mozolm.Hub
open XR Scores

theorem normalizeWeights_costOf {ps : List ℝ} (hp : ∀ p ∈ ps, 0 ≤ p) (hs : 0 < ps.sum) :
    normalizeWeights Arith.xr (ps.map costOf) = ps.map fun p => costOf (p / ps.sum) := by
  have := softmax_costOf hp hs
  cases ps with
  | nil => simp at hs
  | cons p ps =>
    simp only [List.map_cons, softmaxRenormalize, Except.ok.injEq] at this
    simpa only [List.map_cons, normalizeWeights] using this

/-- `acc` is a map with the keys `ks`, storing the cost of `f k` at `k` -/
structure Rep (acc : List (Str × XR)) (ks : List Str) (f : Str → ℝ) : Prop where
  eq : acc = ks.map fun k => (k, costOf (f k))
  nodup : ks.Nodup
  nonneg : ∀ k, 0 ≤ f k
  supp : ∀ k, k ∉ ks → f k = 0

def addKey (ks : List Str) (k : Str) : List Str := if k ∈ ks then ks else ks ++ [k]

theorem mem_addKey {ks : List Str} {k x : Str} : x ∈ addKey ks k ↔ x ∈ ks ∨ x = k := by
  unfold addKey; split
  · constructor
    · exact .inl
    · rintro (h | rfl) <;> assumption
  · simp

theorem mixInsert_map {key : Str} {v : ℝ} (hv : 0 ≤ v) {f : Str → ℝ} (hf : ∀ k, 0 ≤ f k)
    {ks : List Str} (hn : ks.Nodup) (h0 : key ∉ ks → f key = 0) :
    mixInsert Arith.xr key (costOf v) (ks.map fun k => (k, costOf (f k))) =
      (addKey ks key).map fun k => (k, costOf (Function.update f key (f key + v) k)) := by
  induction ks with
  | nil => simp [mixInsert, addKey, h0]
  | cons k ks ih =>
    simp only [List.map_cons, mixInsert]
    rw [List.nodup_cons] at hn
    by_cases hk : k = key
    · subst hk
      rw [if_pos rfl]
      simp only [addKey, List.mem_cons, true_or, if_true, List.map_cons, Function.update_self]
      rw [negLogSum_costOf hv (hf k), add_comm]
      congr 1
      refine List.map_congr_left fun x hx => ?_
      rw [Function.update_of_ne]
      rintro rfl; exact hn.1 hx
    · rw [if_neg hk, ih hn.2 (fun h => h0 (by simp [h, Ne.symm hk]))]
      have : addKey (k :: ks) key = k :: addKey ks key := by
        unfold addKey
        simp only [List.mem_cons, Ne.symm hk, false_or]
        split <;> rfl
      rw [this, List.map_cons, Function.update_of_ne hk]

theorem Rep.insert {acc : List (Str × XR)} {ks : List Str} {f : Str → ℝ} (h : Rep acc ks f)
    (key : Str) {v : ℝ} (hv : 0 ≤ v) :
    Rep (mixInsert Arith.xr key (costOf v) acc) (addKey ks key)
      (Function.update f key (f key + v)) where
  eq := by rw [h.eq]; exact mixInsert_map hv h.nonneg h.nodup (h.supp key)
  nodup := by
    unfold addKey; split
    · exact h.nodup
    · next hk => simp [List.nodup_append, h.nodup]; rintro a ha rfl; exact hk ha
  nonneg k := by
    by_cases hk : k = key
    · subst hk; rw [Function.update_self]; have := h.nonneg k; positivity
    · rw [Function.update_of_ne hk]; exact h.nonneg k
  supp k hk := by
    rw [mem_addKey, not_or] at hk
    rw [Function.update_of_ne hk.2]
    exact h.supp k hk.1

theorem mixLoop_rep {w : ℝ} (hw : 0 ≤ w) {es : List (Str × ℝ)} (he : ∀ e ∈ es, 0 ≤ e.2) :
    ∀ {acc : List (Str × XR)} {ks : List Str} {f : Str → ℝ}, Rep acc ks f →
    ∃ acc' ks', mixLoop Arith.xr (costOf w) (es.map fun e => XR.fin e.2) (es.map Prod.fst) acc =
        .ok acc' ∧
      Rep acc' ks' (fun k => f k + w * ((es.filter fun e => e.1 = k).map Prod.snd).sum) ∧
      ∀ k, k ∈ ks' ↔ k ∈ ks ∨ k ∈ es.map Prod.fst := by
  induction es with
  | nil => intro acc ks f h; exact ⟨acc, ks, rfl, by simpa using h, by simp⟩
  | cons e es ih =>
    intro acc ks f h
    have he2 : 0 ≤ e.2 := he e (by simp)
    have hi := h.insert e.1 (v := e.2 * w) (by positivity)
    obtain ⟨acc', ks', h1, h2, h3⟩ := ih (fun e' h' => he e' (by simp [h'])) hi
    refine ⟨acc', ks', ?_, ?_, ?_⟩
    · simp only [List.map_cons, mixLoop]
      rw [negLog_fin he2, add_costOf he2 hw]
      exact h1
    · convert h2 using 1
      funext k
      by_cases hk : k = e.1
      · subst hk
        rw [Function.update_self, List.filter_cons]
        simp only [decide_true, if_true, List.map_cons, List.sum_cons]
        ring
      · rw [Function.update_of_ne hk, List.filter_cons]
        simp [Ne.symm hk]
    · intro k
      rw [h3, mem_addKey]
      simp only [List.map_cons, List.mem_cons]
      tauto

variable {σ : Type}

/-- the components from index `i` answer with the entries of `rs` -/
def Answers (env : Env Arith.xr σ) (st : HubState XR) (i : Nat) (ms : List σ) (rs : List Share) :
    Prop :=
  ms.length = rs.length ∧ ∀ (k : Nat) (m : σ) (r : Share), ms[k]? = some m → rs[k]? = some r →
    ∃ m' nrm, env.extract m (st.modelState (i + k)) =
      (some ⟨r.2.map Prod.fst, r.2.map fun e => XR.fin e.2, nrm⟩, m')

theorem extractLoop_rep {env : Env Arith.xr σ} {st : HubState XR} {rs : List Share} :
    ∀ {i : Nat} {ms : List σ} {acc : List (Str × XR)} {ks : List Str} {f : Str → ℝ} {nrm : XR},
    (∀ r ∈ rs, 0 ≤ r.1 ∧ ∀ e ∈ r.2, 0 ≤ e.2) → Answers env st i ms rs → Rep acc ks f →
    ∃ acc' nrm' ms' ks', extractLoop env st i (rs.map fun r => costOf r.1) ms acc nrm =
        .ok (some (acc', nrm'), ms') ∧
      Rep acc' ks' (fun k => f k + mass rs k) ∧
      ∀ k, k ∈ ks' ↔ k ∈ ks ∨ ∃ r ∈ rs, k ∈ r.2.map Prod.fst := by
  induction rs with
  | nil =>
    intro i ms acc ks f nrm _ ha h
    have : ms = [] := by have := ha.1; simpa using this
    subst this
    exact ⟨acc, nrm, [], ks, rfl, by simpa [mass] using h, by simp⟩
  | cons r rs ih =>
    intro i ms acc ks f nrm hr ha h
    cases ms with
    | nil => have := ha.1; simp at this
    | cons m ms =>
      obtain ⟨m', n, e⟩ := ha.2 0 m r rfl rfl
      obtain ⟨hw, hes⟩ := hr r (by simp)
      obtain ⟨acc1, ks1, l1, l2, l3⟩ := mixLoop_rep hw hes h
      have ha' : Answers env st (i + 1) ms rs := by
        refine ⟨by have := ha.1; simpa using this, fun k m r hm hr => ?_⟩
        have := ha.2 (k + 1) m r (by simpa using hm) (by simpa using hr)
        rw [show i + 1 + k = i + (k + 1) by omega]
        exact this
      obtain ⟨acc', nrm', ms', ks', e1, e2, e3⟩ := ih (i := i + 1) (ms := ms) (acc := acc1)
        (ks := ks1) (nrm := XR.add nrm (XR.mul n (expNeg (costOf r.1))))
        (fun r' h' => hr r' (by simp [h'])) ha' l2
      refine ⟨acc', nrm', m' :: ms', ks', ?_, ?_, ?_⟩
      · simp only [List.map_cons, extractLoop]
        rw [show i + 0 = i from rfl] at e
        rw [e]
        simp only [mixResults]
        rw [l1]
        simp only [ok_bind]
        rw [e1]
        rfl
      · convert e2 using 1
        funext k
        simp only [mass, List.map_cons, List.sum_cons]
        ring
      · intro k
        rw [e3, l3]
        simp only [List.mem_cons, exists_eq_or_imp]
        tauto

theorem sum_perm {l l' : List ℝ} (h : l.Perm l') : l.sum = l'.sum := h.sum_eq

/-- summing the masses of all symbols gives the total -/
theorem sum_mass {rs : List Share} : ∀ {ks : List Str}, ks.Nodup →
    (∀ r ∈ rs, ∀ e ∈ r.2, e.1 ∈ ks) → (ks.map (mass rs)).sum = total rs := by
  have one : ∀ (es : List (Str × ℝ)) (ks : List Str), ks.Nodup → (∀ e ∈ es, e.1 ∈ ks) →
      (ks.map fun k => ((es.filter fun e => e.1 = k).map Prod.snd).sum).sum =
        (es.map Prod.snd).sum := by
    intro es
    induction es with
    | nil => intro ks _ _; simp
    | cons e es ih =>
      intro ks hn hm
      rw [List.map_cons, List.sum_cons, ← ih ks hn fun e' h' => hm e' (by simp [h'])]
      have he := hm e (by simp)
      have hk : ∀ ks : List Str, ks.Nodup →
          (ks.map fun k => (((e :: es).filter fun e => e.1 = k).map Prod.snd).sum).sum =
          (if e.1 ∈ ks then e.2 else 0) +
            (ks.map fun k => ((es.filter fun e => e.1 = k).map Prod.snd).sum).sum := by
        intro ks hn
        induction ks with
        | nil => simp
        | cons k ks ihk =>
          rw [List.nodup_cons] at hn
          rw [List.map_cons, List.sum_cons, ihk hn.2, List.map_cons, List.sum_cons,
            List.filter_cons]
          by_cases h : e.1 = k
          · subst h
            rw [if_neg hn.1]
            simp
            ring
          · simp only [List.mem_cons, h, false_or, decide_false, Bool.false_eq_true, if_false]
            ring
      rw [hk ks hn, if_pos he]
  intro ks hn hm
  induction rs with
  | nil =>
    have : ks.map (mass []) = ks.map fun _ => (0 : ℝ) := List.map_congr_left fun _ _ => by simp [mass]
    rw [this]; simp [total]
  | cons r rs ih =>
    have h1 := one r.2 ks hn (hm r (by simp))
    have h2 := ih fun r' h' => hm r' (by simp [h'])
    simp only [total, List.map_cons, List.sum_cons] at h2 ⊢
    rw [← h2, ← h1]
    have : (ks.map (mass (r :: rs))) = ks.map fun k =>
        r.1 * ((r.2.filter fun e => e.1 = k).map Prod.snd).sum + mass rs k := by
      refine List.map_congr_left fun k _ => ?_
      simp [mass]
    rw [this, List.sum_map_add, List.sum_map_mul_left]

end Mozolm.Hub
