import Verif.Hub.RoundingSpec
import Verif.Hub.Numeric
import Verif.Hub.Sorted
import Verif.RoundingLemmas

/-! # Hub: mixture numerics with rounding -/

namespace Mozolm.Hub
open XR Scores

variable {φ : Prop} {ε δ : ℝ} {F : Rounding φ ε δ} {σ : Type}

/-- `acc` is a map with the keys `ks`, storing the cost of `f k` at `k` within `e0 + n k * ε` -/
structure RepNear (φ : Prop) (ε e0 : ℝ) (n : Str → Nat) (acc : List (Str × XR)) (ks : List Str) (f : Str → ℝ) : Prop where
  keys : acc.map Prod.fst = ks
  nodup : ks.Nodup
  nonneg : ∀ k, 0 ≤ f k
  near : ∀ e ∈ acc, CostNear φ (e0 + n e.1 * ε) e.2 (f e.1)
  supp : ∀ k, k ∉ ks → f k = 0

theorem mixInsert_keys (A : Arith) (key : Str) (v : A.C) : ∀ acc : List (Str × A.C),
    (mixInsert A key v acc).map Prod.fst = addKey (acc.map Prod.fst) key := by
  intro acc
  induction acc with
  | nil => simp [mixInsert, addKey]
  | cons e acc ih =>
    simp only [mixInsert]
    by_cases h : e.1 = key
    · rw [if_pos h]
      simp [addKey, h]
    · rw [if_neg h, List.map_cons, ih]
      unfold addKey
      simp only [List.map_cons, List.mem_cons, Ne.symm h, false_or]
      split <;> rfl

theorem mixInsert_mem {A : Arith} {key : Str} {v : A.C} : ∀ {acc : List (Str × A.C)}, (acc.map Prod.fst).Nodup →
    ∀ {x : Str × A.C}, x ∈ mixInsert A key v acc →
      (x.1 ≠ key ∧ x ∈ acc) ∨ (key ∉ acc.map Prod.fst ∧ x = (key, v)) ∨ ∃ c, (key, c) ∈ acc ∧ x = (key, A.nls v c) := by
  intro acc
  induction acc with
  | nil =>
    intro _ x hx
    simp only [mixInsert, List.mem_singleton] at hx
    exact .inr (.inl ⟨by simp, hx⟩)
  | cons e acc ih =>
    intro hn x hx
    simp only [List.map_cons, List.nodup_cons] at hn
    simp only [mixInsert] at hx
    by_cases h : e.1 = key
    · rw [if_pos h] at hx
      rcases List.mem_cons.1 hx with hx | hx
      · exact .inr (.inr ⟨e.2, by rw [← h]; simp, hx⟩)
      · left
        refine ⟨fun hk => hn.1 ?_, List.mem_cons_of_mem _ hx⟩
        rw [h, ← hk]
        exact List.mem_map_of_mem hx
    · rw [if_neg h] at hx
      rcases List.mem_cons.1 hx with rfl | hx
      · exact .inl ⟨h, by simp⟩
      · rcases ih hn.2 hx with ⟨h1, h2⟩ | ⟨h1, h2⟩ | ⟨c, h1, h2⟩
        · exact .inl ⟨h1, List.mem_cons_of_mem _ h2⟩
        · exact .inr (.inl ⟨by simp only [List.map_cons, List.mem_cons, not_or]; exact ⟨Ne.symm h, h1⟩, h2⟩)
        · exact .inr (.inr ⟨c, List.mem_cons_of_mem _ h1, h2⟩)

theorem RepNear.insert (hε : 0 ≤ ε) {e0 : ℝ} {n : Str → Nat} {acc : List (Str × XR)} {ks : List Str} {f : Str → ℝ}
    (h : RepNear φ ε e0 n acc ks f) (key : Str) {c : XR} {v : ℝ} (hv : 0 ≤ v) (hc : CostNear φ e0 c v) :
    RepNear φ ε e0 (Function.update n key (n key + 1)) (mixInsert F.arith key c acc) (addKey ks key)
      (Function.update f key (f key + v)) where
  keys := by
    have := mixInsert_keys F.arith key c acc
    rw [this, h.keys]
  nodup := by
    unfold addKey; split
    · exact h.nodup
    · next hk => simp [List.nodup_append, h.nodup]; rintro a ha rfl; exact hk ha
  nonneg k := by
    by_cases hk : k = key
    · subst hk; rw [Function.update_self]; have := h.nonneg k; positivity
    · rw [Function.update_of_ne hk]; exact h.nonneg k
  supp k hk := by
    rw [mem_addKey, not_or] at hk
    rw [Function.update_of_ne hk.2]
    exact h.supp k hk.1
  near x hx := by
    rcases mixInsert_mem (A := F.arith) (by rw [h.keys]; exact h.nodup) hx with ⟨h1, h2⟩ | ⟨h1, rfl⟩ | ⟨c', h1, rfl⟩
    · rw [Function.update_of_ne h1, Function.update_of_ne h1]
      exact h.near x h2
    · rw [h.keys] at h1
      simp only [Function.update_self]
      rw [h.supp key h1, zero_add]
      refine hc.mono ?_
      have : 0 ≤ ((n key + 1 : Nat) : ℝ) * ε := by positivity
      linarith
    · simp only [Function.update_self]
      have h2 := h.near _ h1
      have h3 := CostNear.nls F (hc.mono (f := e0 + n key * ε) (by have : 0 ≤ (n key : ℝ) * ε := by positivity
                                                                   linarith)) h2
      rw [add_comm (f key) v]
      convert h3 using 1
      push_cast; ring

theorem mixLoop_near (hε : 0 ≤ ε) {w : XR} {wr eW d : ℝ} (hw : 0 ≤ wr) (hwn : CostNear φ eW w wr) {es : List (Str × ℝ)} :
    ∀ {xs : List XR} {acc : List (Str × XR)} {ks : List Str} {f : Str → ℝ} {n : Str → Nat}, (∀ e ∈ es, 0 ≤ e.2) →
    xs.length = es.length → (∀ (l : Nat) (x : XR) (e : Str × ℝ), xs[l]? = some x → es[l]? = some e → ValueNear φ d x e.2) →
    RepNear φ ε (d + eW + 2 * ε) n acc ks f →
    ∃ acc' ks', mixLoop F.arith w xs (es.map Prod.fst) acc = .ok acc' ∧
      RepNear φ ε (d + eW + 2 * ε) (fun k => n k + (es.map Prod.fst).count k) acc' ks'
        (fun k => f k + wr * ((es.filter fun e => e.1 = k).map Prod.snd).sum) ∧
      ∀ k, k ∈ ks' ↔ k ∈ ks ∨ k ∈ es.map Prod.fst := by
  induction es with
  | nil =>
    intro xs acc ks f n _ hl _ h
    have : xs = [] := by simpa using hl
    subst this
    exact ⟨acc, ks, rfl, by simpa using h, by simp⟩
  | cons e es ih =>
    intro xs acc ks f n he hl hx h
    cases xs with
    | nil => simp at hl
    | cons x xs =>
      have he2 : 0 ≤ e.2 := he e (by simp)
      have hxe := hx 0 x e rfl rfl
      have hcost : CostNear φ (d + eW + 2 * ε) (F.times (F.cost x) w) (e.2 * wr) := by
        have := CostNear.times F (ValueNear.cost F he2 hxe) hwn
        refine this.mono ?_
        linarith
      have hi := h.insert (F := F) hε e.1 (v := e.2 * wr) (by positivity) hcost
      obtain ⟨acc', ks', h1, h2, h3⟩ := ih (xs := xs) (fun e' h' => he e' (by simp [h'])) (by simpa using hl)
        (fun l x' e' k1 k2 => hx (l + 1) x' e' (by simpa using k1) (by simpa using k2)) hi
      refine ⟨acc', ks', ?_, ?_, ?_⟩
      · simp only [List.map_cons, mixLoop]
        exact h1
      · convert h2 using 1
        · funext k
          by_cases hk : k = e.1
          · subst hk
            rw [Function.update_self, List.map_cons, List.count_cons_self]; omega
          · rw [Function.update_of_ne hk, List.map_cons, List.count_cons_of_ne (Ne.symm hk)]
        · funext k
          by_cases hk : k = e.1
          · subst hk
            rw [Function.update_self, List.filter_cons]
            simp only [decide_true, if_true, List.map_cons, List.sum_cons]
            ring
          · rw [Function.update_of_ne hk, List.filter_cons]
            simp [Ne.symm hk]
      · intro k
        rw [h3, mem_addKey]
        simp only [List.map_cons, List.mem_cons]
        tauto

theorem extractLoop_near (hε : 0 ≤ ε) {env : Env F.arith σ} {st : HubState XR} {eW d : ℝ} {rs : List Share} :
    ∀ {i : Nat} {ws : List XR} {ms : List σ} {acc : List (Str × XR)} {ks : List Str} {f : Str → ℝ} {n : Str → Nat} {nrm : XR},
    (∀ r ∈ rs, 0 ≤ r.1 ∧ ∀ e ∈ r.2, 0 ≤ e.2) → ws.length = rs.length →
    (∀ (k : Nat) (w : XR) (r : Share), ws[k]? = some w → rs[k]? = some r → CostNear φ eW w r.1) →
    AnswersNear d env st i ms rs → RepNear φ ε (d + eW + 2 * ε) n acc ks f →
    ∃ acc' nrm' ms' ks', extractLoop env st i ws ms acc nrm = .ok (some (acc', nrm'), ms') ∧
      RepNear φ ε (d + eW + 2 * ε) (fun k => n k + offers rs k) acc' ks' (fun k => f k + mass rs k) ∧
      ∀ k, k ∈ ks' ↔ k ∈ ks ∨ ∃ r ∈ rs, k ∈ r.2.map Prod.fst := by
  induction rs with
  | nil =>
    intro i ws ms acc ks f n nrm _ hl _ ha h
    have hw : ws = [] := by simpa using hl
    have hm : ms = [] := by have := ha.1; simpa using this
    subst hw hm
    exact ⟨acc, nrm, [], ks, rfl, by simpa [mass, offers] using h, by simp⟩
  | cons r rs ih =>
    intro i ws ms acc ks f n nrm hr hl hwn ha h
    cases ms with
    | nil => have := ha.1; simp at this
    | cons m ms =>
      cases ws with
      | nil => simp at hl
      | cons w ws =>
        obtain ⟨m', xs, nn, e, x1, x2⟩ := ha.2 0 m r rfl rfl
        obtain ⟨hw, hes⟩ := hr r (by simp)
        obtain ⟨acc1, ks1, l1, l2, l3⟩ := mixLoop_near (F := F) hε hw (hwn 0 w r rfl rfl) hes x1 x2 h
        have ha' : AnswersNear d env st (i + 1) ms rs := by
          refine ⟨by have := ha.1; simpa using this, fun k m r hm hr => ?_⟩
          have := ha.2 (k + 1) m r (by simpa using hm) (by simpa using hr)
          rw [show i + 1 + k = i + (k + 1) by omega]
          exact this
        obtain ⟨acc', nrm', ms', ks', e1, e2, e3⟩ := ih (i := i + 1) (ws := ws) (ms := ms) (acc := acc1)
          (ks := ks1) (nrm := F.dadd nrm (F.dmul nn (F.prob w)))
          (fun r' h' => hr r' (by simp [h'])) (by simpa using hl)
          (fun k w' r' k1 k2 => hwn (k + 1) w' r' (by simpa using k1) (by simpa using k2)) ha' l2
        refine ⟨acc', nrm', m' :: ms', ks', ?_, ?_, ?_⟩
        · simp only [extractLoop]
          rw [show i + 0 = i from rfl] at e
          rw [e]
          simp only [mixResults]
          rw [l1]
          simp only [ok_bind]
          rw [e1]
          rfl
        · convert e2 using 1
          · funext k
            simp only [offers, List.map_cons, List.sum_cons]
            omega
          · funext k
            simp only [mass, List.map_cons, List.sum_cons]
            ring
        · intro k
          rw [e3, l3]
          simp only [List.mem_cons, exists_eq_or_imp]
          tauto

end Mozolm.Hub
