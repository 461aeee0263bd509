import Verif.Basic
import Verif.Hub.Model

/-! # Hub: structural invariant and closed form of state creation -/

namespace Mozolm.Hub
variable {A : Arith} {σ : Type}

/-- A component reached from `m` by queries only. -/
inductive Touch (ops : LMOps A σ) : σ → σ → Prop
  | refl (m) : Touch ops m m
  | next {m m'} (s c) : Touch ops m m' → Touch ops m (ops.next m' s c).2
  | extract {m m'} (s) : Touch ops m m' → Touch ops m (ops.extract m' s).2
  | score {m m'} (s c) : Touch ops m m' → Touch ops m (ops.symScore m' s c).2

theorem Touch.trans {ops : LMOps A σ} {a b c : σ} (h : Touch ops a b) (h' : Touch ops b c) :
    Touch ops a c := by
  induction h' with
  | refl => exact h
  | next s c _ ih => exact .next s c (ih)
  | extract s _ ih => exact .extract s (ih)
  | score s c _ ih => exact .score s c (ih)

/-- A component reached from `m` by any operations. -/
inductive TouchU (ops : LMOps A σ) : σ → σ → Prop
  | refl (m) : TouchU ops m m
  | next {m m'} (s c) : TouchU ops m m' → TouchU ops m (ops.next m' s c).2
  | extract {m m'} (s) : TouchU ops m m' → TouchU ops m (ops.extract m' s).2
  | score {m m'} (s c) : TouchU ops m m' → TouchU ops m (ops.symScore m' s c).2
  | update {m m'} (s cs n) : TouchU ops m m' → TouchU ops m (ops.update m' s cs n).2

theorem TouchU.trans {ops : LMOps A σ} {a b c : σ} (h : TouchU ops a b) (h' : TouchU ops b c) :
    TouchU ops a c := by
  induction h' with
  | refl => exact h
  | next s c _ ih => exact .next s c (ih)
  | extract s _ ih => exact .extract s (ih)
  | score s c _ ih => exact .score s c (ih)
  | update s cs n _ ih => exact .update s cs n (ih)

theorem Touch.toU {ops : LMOps A σ} {a b : σ} (h : Touch ops a b) : TouchU ops a b := by
  induction h with
  | refl => exact .refl _
  | next s c _ ih => exact .next s c ih
  | extract s _ ih => exact .extract s ih
  | score s c _ ih => exact .score s c ih

abbrev Touches (ops : LMOps A σ) := Pointwise (Touch ops)
abbrev TouchesU (ops : LMOps A σ) := Pointwise (TouchU ops)

theorem Touches.refl (ops : LMOps A σ) (l : List σ) : Touches ops l l := Pointwise.refl (.refl) l
theorem Touches.trans {ops : LMOps A σ} {a b c : List σ} (h : Touches ops a b)
    (h' : Touches ops b c) : Touches ops a c := Pointwise.trans (fun _ _ _ => Touch.trans) h h'
theorem Touches.toU {ops : LMOps A σ} {a b : List σ} (h : Touches ops a b) :
    TouchesU ops a b := h.mono fun _ _ => Touch.toU
theorem TouchesU.refl (ops : LMOps A σ) (l : List σ) : TouchesU ops l l := Pointwise.refl (.refl) l
theorem TouchesU.trans {ops : LMOps A σ} {a b c : List σ} (h : TouchesU ops a b)
    (h' : TouchesU ops b c) : TouchesU ops a c := Pointwise.trans (fun _ _ _ => TouchU.trans) h h'

/-! ## the component loops -/

theorem nextAll_touches (ops : LMOps A σ) (st : HubState A.C) (c : Int) (i : Nat) (ms : List σ) :
    Touches ops ms (nextAll ops st c i ms).2 := by
  induction ms generalizing i with
  | nil => exact .nil
  | cons m ms ih => exact .cons (.next _ _ (.refl m)) (ih _)

theorem nextAll_length (ops : LMOps A σ) (st : HubState A.C) (c : Int) (i : Nat) (ms : List σ) :
    (nextAll ops st c i ms).1.length = ms.length := by
  induction ms generalizing i with
  | nil => rfl
  | cons m ms ih => simp [nextAll, ih]

theorem scoreAll_touches (ops : LMOps A σ) (st : HubState A.C) (c : Int) (i : Nat) (ms : List σ) :
    Touches ops ms (scoreAll ops st c i ms).2 := by
  induction ms generalizing i with
  | nil => exact .nil
  | cons m ms ih => exact .cons (.score _ _ (.refl m)) (ih _)

theorem scoreAll_length (ops : LMOps A σ) (st : HubState A.C) (c : Int) (i : Nat) (ms : List σ) :
    (scoreAll ops st c i ms).1.length = ms.length := by
  induction ms generalizing i with
  | nil => rfl
  | cons m ms ih => simp [scoreAll, ih]

/-! ## association lists -/

theorem lookup_mem {l : List (Int × Nat)} {c : Int} {k : Nat}
    (h : HubState.lookup l c = some k) : (c, k) ∈ l := by
  induction l with
  | nil => simp [HubState.lookup] at h
  | cons e l ih =>
    simp only [HubState.lookup] at h
    split at h
    · next he => cases h; subst he; simp
    · exact List.mem_cons_of_mem _ (ih h)

theorem lookup_none {l : List (Int × Nat)} {c : Int} (h : HubState.lookup l c = none) :
    ∀ e ∈ l, e.1 ≠ c := by
  induction l with
  | nil => simp
  | cons e l ih =>
    simp only [HubState.lookup] at h
    split at h
    · cases h
    · next hne =>
      intro e' he'
      rcases List.mem_cons.1 he' with rfl | h'
      · exact hne
      · exact ih h _ h'

theorem lookup_append_new {l : List (Int × Nat)} {c : Int} {k : Nat}
    (h : HubState.lookup l c = none) : HubState.lookup (l ++ [(c, k)]) c = some k := by
  induction l with
  | nil => simp [HubState.lookup]
  | cons e l ih =>
    simp only [HubState.lookup] at h
    split at h
    · cases h
    · next hne => simp only [List.cons_append, HubState.lookup, if_neg hne]; exact ih h

theorem lookup_append_of_some {l l' : List (Int × Nat)} {c : Int} {k : Nat}
    (h : HubState.lookup l c = some k) : HubState.lookup (l ++ l') c = some k := by
  induction l with
  | nil => simp [HubState.lookup] at h
  | cons e l ih =>
    simp only [List.cons_append, HubState.lookup] at h ⊢
    split
    · next he => rw [if_pos he] at h; exact h
    · next he => rw [if_neg he] at h; exact ih h

/-! ## age order of the recycled table -/

/-- Slot `i` is older than (or is the permanent start state, or is the same slot as) slot `k`, when
`last` was the last slot written. -/
def Older (last i k : Nat) : Prop :=
  (i = 0 ∧ k ≤ last) ∨ (1 ≤ i ∧ ((last < i ∧ k ≤ last) ∨ ((last < i ↔ last < k) ∧ i ≤ k)))

/-- The hash map iteration orders only permute. -/
structure Env.Fair (env : Env A σ) : Prop where
  permN : ∀ l, (env.orderN l).Perm l
  permV : ∀ l, (env.orderV l).Perm l

/-- Well-formedness of one state of a table. -/
structure StateOK (h : Hub A σ) (i : Nat) (st : HubState A.C) : Prop where
  ms : st.modelStates.length = h.models.length
  prev_ge : -1 ≤ st.prev
  prev_lt : st.prev < (h.states.length : Int)
  hist : 0 < h.hlen → st.hist.length = h.models.length ∧ st.histSum.length = h.models.length ∧
    ∀ r ∈ st.hist, r.length = h.hlen
  edges : ∀ c k, (c, k) ∈ st.nexts → 0 ≤ c ∧ 1 ≤ k ∧ Older h.last i k ∧
    ∃ kst, h.states[k]? = some kst ∧ kst.sym = c

/-- The invariant of the hub's table. -/
structure Inv (h : Hub A σ) : Prop where
  max_ge : 10 ≤ h.max
  le : h.states.length ≤ h.max
  last_lt : h.last < h.states.length
  grow : h.states.length < h.max → h.last + 1 = h.states.length
  st : ∀ i st, h.states[i]? = some st → StateOK h i st

theorem Inv.pos {h : Hub A σ} (hi : Inv h) : 0 < h.states.length :=
  Nat.lt_of_le_of_lt (Nat.zero_le _) hi.last_lt

/-! ## `resetPrevs` in closed form -/

/-- reset the predecessor in the listed slots -/
def resetAt (ks : List Nat) (states : List (HubState A.C)) : List (HubState A.C) :=
  states.mapIdx fun i st => if i ∈ ks then st.resetPrev else st

@[simp] theorem resetAt_length (ks : List Nat) (states : List (HubState A.C)) :
    (resetAt ks states).length = states.length := by simp [resetAt]

theorem resetAt_get (ks : List Nat) (states : List (HubState A.C)) (i : Nat) :
    (resetAt ks states)[i]? =
      (states[i]?).map fun st => if i ∈ ks then st.resetPrev else st := by
  simp [resetAt, List.getElem?_mapIdx]

theorem resetPrevs_eq (ks : List Nat) (states : List (HubState A.C))
    (h : ∀ k ∈ ks, k < states.length) : resetPrevs states ks = .ok (resetAt ks states) := by
  induction ks generalizing states with
  | nil =>
    simp only [resetPrevs]
    congr 1
    apply List.ext_getElem?
    intro i
    rw [resetAt_get]; simp
  | cons k ks ih =>
    have hk : k < states.length := h k (by simp)
    simp only [resetPrevs, List.getElem?_eq_getElem hk]
    rw [ih _ (by intro k' hk'; simpa using h k' (by simp [hk']))]
    congr 1
    apply List.ext_getElem?
    intro i
    rw [resetAt_get, resetAt_get, List.getElem?_set]
    by_cases hik : k = i
    · subst hik
      simp only [if_true, hk, List.getElem?_eq_getElem hk, Option.map_some, List.mem_cons, true_or]
      split <;> rfl
    · simp only [if_neg hik, List.mem_cons]
      congr 1
      funext st
      by_cases h' : i ∈ ks
      · simp [h']
      · have : ¬ (i = k) := fun e => hik e.symm
        simp [h', this]

/-- targets of the cached transitions -/
def targets (st : HubState A.C) : List Nat := st.nexts.map Prod.snd

/-- Closed form of `updateHubState` (overwrite slot `idx`, detach its old successors). -/
def clearAt (env : Env A σ) (states : List (HubState A.C)) (idx : Nat) (new : HubState A.C) :
    List (HubState A.C) :=
  match states[idx]? with
  | none => states
  | some st => resetAt ((env.orderN st.nexts).map Prod.snd) (states.set idx new)

@[simp] theorem clearAt_length (env : Env A σ) (states : List (HubState A.C)) (idx : Nat)
    (new : HubState A.C) : (clearAt env states idx new).length = states.length := by
  unfold clearAt; split <;> simp

theorem mk'_nexts (ms : List Int) (p c : Int) (hlen : Nat) :
    (HubState.mk' A ms p c hlen).nexts = [] := rfl

theorem updateHubState_eq {env : Env A σ} {h : Hub A σ} (hf : env.Fair) {idx : Nat}
    {ms : List Int} {p c : Int} {st : HubState A.C} (hst : h.states[idx]? = some st)
    (hlen : ms.length = st.modelStates.length)
    (ht : ∀ c k, (c, k) ∈ st.nexts → k < h.states.length) :
    updateHubState env h idx ms p c =
      .ok (some { h with states := clearAt env h.states idx (HubState.mk' A ms p c h.hlen) }) := by
  have e1 : (List.range st.modelStates.length).map (HubState.mk' A ms p c h.hlen).modelState = ms := by
    rw [← hlen]
    apply List.ext_getElem?
    intro i
    simp only [List.getElem?_map, HubState.mk']
    rcases Nat.lt_or_ge i ms.length with hi | hi
    · simp [HubState.modelState, hi]
    · simp [hi]
  have e2 : ({ modelStates := (List.range st.modelStates.length).map
                  (HubState.mk' A ms p c h.hlen).modelState
               prev := (HubState.mk' A ms p c h.hlen).prev
               nexts := []
               sym := (HubState.mk' A ms p c h.hlen).sym
               hist := (HubState.mk' A ms p c h.hlen).hist
               histSum := (HubState.mk' A ms p c h.hlen).histSum } : HubState A.C) =
      HubState.mk' A ms p c h.hlen := by
    rw [e1]; rfl
  have hl : ¬ (st.modelStates.length ≠ (HubState.mk' A ms p c h.hlen).modelStates.length) := by
    simp [HubState.mk', hlen]
  simp only [updateHubState, hst, HubState.updateHubState, if_neg hl]
  rw [e2, resetPrevs_eq]
  · simp [clearAt, hst]
  · intro k hk
    simp only [List.length_set]
    obtain ⟨e, he, rfl⟩ := List.mem_map.1 hk
    exact ht e.1 e.2 ((hf.permN _).mem_iff.1 he)

end Mozolm.Hub
