import Verif.Ppm.Alike

/-!
# Arcs are only ever appended

Whatever is called, the arcs of a state keep their labels and their order; new ones come last.
-/

namespace Mozolm.Ppm
variable {A : Arith}

/-- The labels of the arcs of each state are those it had, perhaps followed by others. -/
def Appended {C : Type} (f f' : Fst C) : Prop :=
  ∀ (x : Nat) st, f.states[x]? = some st → ∃ st', f'.states[x]? = some st' ∧ st.arcs.map Arc.label <+: st'.arcs.map Arc.label

theorem Appended.refl {C : Type} (f : Fst C) : Appended f f := fun _ st h => ⟨st, h, List.prefix_refl _⟩

theorem Appended.trans {C : Type} {f g k : Fst C} (h : Appended f g) (h' : Appended g k) : Appended f k := by
  intro x st hx
  obtain ⟨st1, e1, e2⟩ := h x st hx
  obtain ⟨st2, e3, e4⟩ := h' x st1 e1
  exact ⟨st2, e3, e2.trans e4⟩

theorem Appended.set {C : Type} {f : Fst C} {s : Int} {st st' : FState C} (h : f.state? s = some st)
    (hl : st.arcs.map Arc.label <+: st'.arcs.map Arc.label) : Appended f (setState f s st') := by
  intro x st1 hx
  unfold Fst.state? at h
  by_cases hs : s < 0
  · rw [if_pos hs] at h; cases h
  rw [if_neg hs] at h
  simp only [setState, List.getElem?_set]
  by_cases hsx : s.toNat = x
  · subst hsx
    rw [h] at hx
    injection hx with hx
    subst hx
    rw [if_pos rfl, if_pos (lt_of_getElem?_eq_some h)]
    exact ⟨st', rfl, hl⟩
  · rw [if_neg hsx]
    exact ⟨st1, hx, List.prefix_refl _⟩

theorem Appended.push {C : Type} (f : Fst C) (st : FState C) : Appended f { f with states := f.states ++ [st] } := by
  intro x st1 hx
  refine ⟨st1, ?_, List.prefix_refl _⟩
  simp only
  rw [List.getElem?_append_left (lt_of_getElem?_eq_some hx)]; exact hx

/-- A computation that only appends arcs. -/
def Grows {β : Type} (x : PM A β) : Prop :=
  ∀ m r m', x m = .ok (r, m') → Appended m.core.fst m'.core.fst

theorem Grows.pure {β : Type} (b : β) : Grows (Pure.pure b : PM A β) := by
  intro m r m' h
  injection h with h
  injection h with _ h
  subst h; exact .refl _

theorem Grows.fail {β : Type} : Grows (PM.fail : PM A β) := by
  intro m r m' h
  injection h with h
  injection h with _ h
  subst h; exact .refl _

theorem Grows.bind {β γ : Type} {x : PM A β} {f : β → PM A γ} (h : Grows x) (h' : ∀ b, Grows (f b)) : Grows (x >>= f) := by
  intro m r m' hm
  have hb : (x >>= f) m = (match x m with
      | .error e => .error e
      | .ok (none, m') => .ok (none, m')
      | .ok (some a, m') => f a m') := rfl
  rw [hb] at hm
  match hx : x m, hm with
  | .ok (none, m1), hm =>
    simp only [Except.ok.injEq, Prod.mk.injEq] at hm
    obtain ⟨_, rfl⟩ := hm
    exact h _ _ _ hx
  | .ok (some a, m1), hm => exact (h _ _ _ hx).trans (h' a _ _ _ hm)

theorem Grows.reads {β : Type} (g : Model A → Res β) : Grows (PM.reads g) := by
  intro m r m' h
  unfold PM.reads at h
  match g m, h with
  | .ok none, h =>
    simp only [Except.ok.injEq, Prod.mk.injEq] at h
    obtain ⟨_, rfl⟩ := h; exact .refl _
  | .ok (some a), h =>
    simp only [Except.ok.injEq, Prod.mk.injEq] at h
    obtain ⟨_, rfl⟩ := h; exact .refl _

theorem Grows.modify {g : Model A → Model A} (h : ∀ m, (g m).core = m.core) : Grows (PM.modify g) := by
  intro m r m' hm
  injection hm with hm
  injection hm with _ hm
  subst hm; rw [h]; exact .refl _

/-- reading a new automaton and storing it -/
theorem Grows.core {β : Type} {g : Model A → Res β} {k : Model A → β → Core A.C}
    (h : ∀ m b, g m = Pure.pure b → Appended m.core.fst (k m b).fst) :
    Grows (PM.reads g >>= fun b => PM.modify fun m => m.setCore (k m b)) := by
  intro m r m' hm
  have hb : (PM.reads g >>= fun b => PM.modify fun m => m.setCore (k m b)) m = (match PM.reads g m with
      | .error e => .error e
      | .ok (none, m') => .ok (none, m')
      | .ok (some a, m') => .ok (some (), m'.setCore (k m' a))) := rfl
  rw [hb] at hm
  unfold PM.reads at hm
  match hg : g m, hm with
  | .error e, hm => cases hm
  | .ok none, hm =>
    simp only [Except.ok.injEq, Prod.mk.injEq] at hm
    obtain ⟨_, rfl⟩ := hm; exact .refl _
  | .ok (some b), hm =>
    simp only [Except.ok.injEq, Prod.mk.injEq] at hm
    obtain ⟨_, rfl⟩ := hm
    exact h m b hg

/-- reading a new automaton, storing it and going on -/
theorem Grows.coreThen {β γ : Type} {g : Model A → Res β} {k : Model A → β → Core A.C} {rest : β → PM A γ}
    (h : ∀ m b, g m = Pure.pure b → Appended m.core.fst (k m b).fst) (h' : ∀ b, Grows (rest b)) :
    Grows (PM.reads g >>= fun b => (PM.modify fun m => m.setCore (k m b)) >>= fun _ => rest b) := by
  intro m r m' hm
  have hb : (PM.reads g >>= fun b => (PM.modify fun m => m.setCore (k m b)) >>= fun _ => rest b) m = (match PM.reads g m with
      | .error e => .error e
      | .ok (none, m') => .ok (none, m')
      | .ok (some a, m') => rest a (m'.setCore (k m' a))) := rfl
  rw [hb] at hm
  unfold PM.reads at hm
  match hg : g m, hm with
  | .error e, hm => cases hm
  | .ok none, hm =>
    simp only [Except.ok.injEq, Prod.mk.injEq] at hm
    obtain ⟨_, rfl⟩ := hm; exact .refl _
  | .ok (some b), hm => exact (h m b hg).trans (h' b _ _ _ hm)

theorem getNewCacheIndex_grows (s : Int) : Grows (A := A) (getNewCacheIndex s) := by
  intro m r m' h
  unfold getNewCacheIndex at h
  by_cases hl : (m.cache.length : Int) < m.maxCache
  · rw [if_pos hl] at h
    simp only [Except.ok.injEq, Prod.mk.injEq] at h
    obtain ⟨_, rfl⟩ := h; exact .refl _
  · rw [if_neg hl] at h
    match hf : findOldest m.cache, h with
    | .ok none, h =>
      simp only [Except.ok.injEq, Prod.mk.injEq] at h
      obtain ⟨_, rfl⟩ := h; exact .refl _
    | .ok (some i), h =>
      simp only at h
      match m.cache[i]?, h with
      | some old, h =>
        simp only at h
        match indexOf m old.state, h with
        | .ok none, h =>
          simp only [Except.ok.injEq, Prod.mk.injEq] at h
          obtain ⟨_, rfl⟩ := h; exact .refl _
        | .ok (some j), h =>
          simp only at h
          by_cases hj : j ≠ (i : Int)
          · rw [if_pos hj] at h
            simp only [Except.ok.injEq, Prod.mk.injEq] at h
            obtain ⟨_, rfl⟩ := h; exact .refl _
          · rw [if_neg hj] at h
            simp only [Except.ok.injEq, Prod.mk.injEq] at h
            obtain ⟨_, rfl⟩ := h; exact .refl _

theorem store_grows (s : Int) (d : Data A.C) : Grows (store s d) := by
  unfold store
  refine (Grows.reads _).bind fun i => ?_
  refine Grows.bind ?_ fun _ => ?_
  · unfold ensureIndex
    by_cases hi : i < 0
    · rw [if_pos hi]; exact getNewCacheIndex_grows s
    · rw [if_neg hi]; exact Grows.pure _
  exact (Grows.reads _).bind fun _ => (Grows.reads _).bind fun _ => Grows.modify fun _ => rfl

theorem updateCacheAtStateWith_grows {ensure : Int → PM A (Entry A.C)} (h : ∀ s, Grows (ensure s)) (s : Int) :
    Grows (updateCacheAtStateWith ensure s) := by
  unfold updateCacheAtStateWith
  refine (Grows.reads _).bind fun n => ?_
  by_cases h1 : s < 0
  · rw [if_pos h1]; exact Grows.fail
  rw [if_neg h1]
  by_cases h2 : s ≥ (n : Int)
  · rw [if_pos h2]; exact Grows.fail
  rw [if_neg h2]
  refine (Grows.reads _).bind fun bo => ?_
  refine Grows.bind ?_ fun bd => (Grows.reads _).bind fun d => store_grows s d
  unfold backoffData
  by_cases hb : bo ≥ 0
  · rw [if_pos hb]; exact (h bo).bind fun _ => Grows.pure _
  · rw [if_neg hb]; exact Grows.pure _

theorem ensureCache_grows : ∀ (k : Nat) (s : Int), Grows (A := A) (ensureCache k s)
  | 0, s => fun m r m' h => by cases h
  | k + 1, s => by
    unfold ensureCache
    refine (Grows.reads _).bind fun stale => ?_
    refine Grows.bind ?_ fun _ => ?_
    · cases stale with
      | true => exact updateCacheAtStateWith_grows (ensureCache_grows k) s
      | false => exact Grows.pure _
    refine (Grows.reads _).bind fun i => (Grows.reads _).bind fun size => ?_
    by_cases h1 : i < 0
    · rw [if_pos h1]; exact Grows.fail
    rw [if_neg h1]
    by_cases h2 : i ≥ (size : Int)
    · rw [if_pos h2]; exact Grows.fail
    rw [if_neg h2]
    refine (Grows.reads _).bind fun e => ?_
    by_cases h3 : e.state ≠ s
    · rw [if_pos h3]; exact Grows.fail
    rw [if_neg h3]
    cases stale with
    | true => exact Grows.pure _
    | false =>
      simp only [Bool.false_eq_true, if_false]
      exact (Grows.reads _).bind fun _ => (Grows.modify fun _ => by rfl).bind fun _ => Grows.pure _

theorem ensureCacheAtState_grows (s : Int) : Grows (A := A) (ensureCacheAtState s) :=
  fun m r m' h => ensureCache_grows m.fuel s m r m' h

theorem lookup_grows {α : Type} (g : Data A.C → List α) (s y : Int) : Grows (A := A)
    (do let e ← ensureCacheAtState s; PM.reads fun _ => verified (g e.data) y) :=
  (ensureCacheAtState_grows s).bind fun _ => Grows.reads _

theorem addNewState_longer {c : Core A.C} {bo : Nat} {r : Core A.C × Nat} (h : addNewState A c bo = pure r) :
    Appended c.fst r.1.fst := by
  unfold addNewState at h
  simp only at h
  by_cases hn : c.fst.states.length ≠ c.orders.length
  · rw [if_pos hn] at h; cases h
  rw [if_neg hn] at h
  obtain ⟨ob, _, h⟩ := Res.bind_eq.mp h
  rw [← Res.pure_inj h]
  exact .push _ _

theorem updateHighestFound_longer {c c' : Core A.C} {curr sym : Int} (h : updateHighestFound A c curr sym = pure c') :
    Appended c.fst c'.fst := by
  unfold updateHighestFound at h
  cases hst : c.fst.state? curr with
  | none => rw [hst] at h; cases h
  | some st =>
    rw [hst] at h
    simp only at h
    by_cases hy : sym = 0
    · rw [if_pos hy] at h
      rw [← Res.pure_inj h]
      exact .set hst (List.prefix_refl _)
    rw [if_neg hy] at h
    match hs : splitArc sym st.arcs, h with
    | none, h => cases h
    | some (pre, a, post), h =>
      simp only at h
      obtain ⟨needs, _, h⟩ := Res.bind_eq.mp h
      have hp := splitArc_parts hs
      have hset : ∀ n : Nat, Appended c.fst (setState c.fst curr { st with
          arcs := pre ++ ({ a with weight := A.nls a.weight A.one, next := n } : Arc A.C) :: post }) := by
        intro n
        refine .set hst ?_
        rw [hp]; simp
      cases needs with
      | true =>
        simp only [if_true] at h
        obtain ⟨r, h1, h⟩ := Res.bind_eq.mp h
        rw [← Res.pure_inj h]
        exact (hset _).trans (addNewState_longer h1)
      | false =>
        simp only [Bool.false_eq_true, if_false] at h
        rw [← Res.pure_inj h]
        exact hset _

theorem updateNotFound_longer {c c' : Core A.C} {curr dest sym : Int} (h : updateNotFound A c curr dest sym = pure c') :
    Appended c.fst c'.fst := by
  unfold updateNotFound at h
  by_cases hy : sym = 0
  · rw [if_pos hy] at h
    cases hst : c.fst.state? curr with
    | none => rw [hst] at h; cases h
    | some st =>
      rw [hst] at h
      rw [← Res.pure_inj h]
      exact .set hst (List.prefix_refl _)
  rw [if_neg hy] at h
  obtain ⟨needs, _, h⟩ := Res.bind_eq.mp h
  obtain ⟨r, h1, h⟩ := Res.bind_eq.mp h
  have hl : Appended c.fst r.1.fst := by
    unfold newDestination at h1
    cases needs with
    | true => exact addNewState_longer h1
    | false =>
      simp only [Bool.false_eq_true, if_false] at h1
      rw [← Res.pure_inj h1]
      exact .refl _
  refine hl.trans ?_
  cases hst : r.1.fst.state? curr with
  | none => rw [hst] at h; cases h
  | some st =>
    rw [hst] at h
    rw [← Res.pure_inj h]
    refine .set hst ?_
    simp

theorem incrementBackoffArc_longer {f : Fst A.C} {s : Int} {r : Fst A.C × Int} (h : incrementBackoffArc A f s = pure r) :
    Appended f r.1 := by
  unfold incrementBackoffArc at h
  obtain ⟨no, _, h⟩ := Res.bind_eq.mp h
  cases hst : f.state? s with
  | none => rw [hst] at h; cases h
  | some st =>
    rw [hst] at h
    simp only at h
    cases ha : st.arcs with
    | nil => rw [ha] at h; cases h
    | cons a rest =>
      rw [ha] at h
      simp only at h
      by_cases h0 : a.label = 0
      · rw [if_pos h0] at h
        cases no with
        | true =>
          simp only [if_true] at h
          rw [← Res.pure_inj h]; exact .refl _
        | false =>
          simp only [Bool.false_eq_true, if_false] at h
          rw [← Res.pure_inj h]
          refine .set hst ?_
          rw [ha]; simp
      · rw [if_neg h0] at h
        rw [← Res.pure_inj h]; exact .refl _

theorem updateModel_grows : ∀ (k : Nat) (curr highest sym : Int), Grows (A := A) (updateModel k curr highest sym)
  | 0, _, _, _ => fun m r m' h => by cases h
  | k + 1, curr, highest, sym => by
    have hrest : ∀ r : Fst A.C × Int, Grows (A := A) (do
        updateCounts (updateModel k r.2 highest sym) curr highest sym
        updateCacheAtState curr
        getDestinationState curr sym) := by
      intro r
      refine Grows.bind ?_ fun _ => (updateCacheAtStateWith_grows ensureCacheAtState_grows curr).bind fun _ =>
        lookup_grows Data.dest curr sym
      unfold updateCounts
      by_cases he : highest = curr
      · rw [if_pos he]
        exact Grows.core (g := fun m => updateHighestFound A m.core curr sym) (k := fun _ c => c)
          fun m b hb => updateHighestFound_longer hb
      · rw [if_neg he]
        refine (updateModel_grows k r.2 highest sym).bind fun dest => ?_
        exact Grows.core (g := fun m => updateNotFound A m.core curr dest sym) (k := fun _ c => c)
          fun m b hb => updateNotFound_longer hb
    unfold updateModel
    exact Grows.coreThen (g := fun m => incrementBackoffArc A m.core.fst curr) (k := fun m r => { m.core with fst := r.1 })
      (fun m b hb => incrementBackoffArc_longer hb) hrest

theorem observe_grows (curr highest sym : Int) : Grows (A := A) (observe curr highest sym) :=
  fun m r m' h => updateModel_grows m.fuel curr highest sym m r m' h

theorem whenM_grows {b : Bool} {x : PM A Unit} (h : Grows x) : Grows (whenM b x) := by
  cases b with
  | true => exact h
  | false => exact Grows.pure _

theorem getNegLogProbsFrom_grows : ∀ (ys : List Int) (s : Int), Grows (A := A) (getNegLogProbsFrom s ys)
  | [], s => Grows.pure _
  | y :: ys, s => by
    unfold getNegLogProbsFrom
    refine (lookup_grows Data.costs s y).bind fun c => (Grows.reads _).bind fun static => ?_
    refine (whenM_grows ?_).bind fun _ => ?_
    · exact (lookup_grows Data.origin s y).bind fun o => (observe_grows s o y).bind fun _ => Grows.pure _
    exact (lookup_grows Data.dest s y).bind fun d => (getNegLogProbsFrom_grows ys d).bind fun _ => Grows.pure _

/-- A public function that only appends arcs. -/
def Grows' {β : Type} (f : Model A → Except Fault (β × Model A)) : Prop :=
  ∀ m r m', f m = .ok (r, m') → Appended m.core.fst m'.core.fst

theorem orElse_grows {α β : Type} {x : PM A α} {k : α → β} {n : Model A → Except Fault β} (h : Grows x) :
    Grows' (orElse x k n) := by
  intro m r m' hm
  unfold orElse at hm
  match hx : x m, hm with
  | .ok (some a, m1), hm =>
    simp only [Except.ok.injEq, Prod.mk.injEq] at hm
    obtain ⟨_, rfl⟩ := hm; exact h _ _ _ hx
  | .ok (none, m1), hm =>
    simp only at hm
    match n m1, hm with
    | .ok b, hm =>
      simp only [Except.ok.injEq, Prod.mk.injEq] at hm
      obtain ⟨_, rfl⟩ := hm; exact h _ _ _ hx

theorem Grows'.total {β : Type} {f : Model A → Except Fault (β × Model A)} (h : Grows' f) : Grows (PM.total f) := by
  intro m r m' hm
  unfold PM.total at hm
  match hx : f m, hm with
  | .ok (b, m1), hm =>
    simp only [Except.ok.injEq, Prod.mk.injEq] at hm
    obtain ⟨_, rfl⟩ := hm; exact h _ _ _ hx

theorem nextState_grows (encode : Int → Str) (s sym : Int) : Grows' (A := A) (nextState encode s sym) := by
  intro m r m' h
  unfold nextState at h
  simp only at h
  by_cases hi : m.symbols.findLabel (encode sym) > 0
  · rw [if_pos hi] at h; exact orElse_grows (lookup_grows Data.dest s _) _ _ _ h
  · rw [if_neg hi] at h; exact orElse_grows Grows.fail _ _ _ h

theorem observeAgain_grows (s sym : Int) : ∀ k, Grows (A := A) (observeAgain s sym k)
  | 0 => Grows.pure _
  | k + 1 => by
    unfold observeAgain
    exact (observe_grows s s sym).bind fun _ => observeAgain_grows s sym k

theorem updateSymbols_grows (encode : Int → Str) (count : Int) : ∀ (ys : List Int) (s : Int),
    Grows (A := A) (updateSymbols encode count s ys)
  | [], s => Grows.pure _
  | y :: ys, s => by
    unfold updateSymbols
    refine Grows.bind ?_ fun t => updateSymbols_grows encode count ys t
    unfold updateSymbol
    refine (Grows.reads _).bind fun idx => ?_
    by_cases h : idx < 0
    · rw [if_pos h]; exact Grows.reads _
    rw [if_neg h]
    exact (lookup_grows Data.origin s idx).bind fun o => (observe_grows s o idx).bind fun _ =>
      (observeAgain_grows s idx _).bind fun _ => (nextState_grows encode s y).total

theorem wrap_grows {β γ : Type} (k : β → γ) {f : Model A → Except Fault (β × Model A)} (h : Grows' f) : Grows' (wrap k f) := by
  intro m r m' hm
  unfold wrap at hm
  match hx : f m, hm with
  | .ok (b, m1), hm =>
    simp only [Except.ok.injEq, Prod.mk.injEq] at hm
    obtain ⟨_, rfl⟩ := hm; exact h _ _ _ hx

theorem step_grows (encode : Int → Str) (op : Op) : Grows' (A := A) (step encode op) := by
  cases op with
  | next s sym => exact wrap_grows _ (nextState_grows encode s sym)
  | scores s =>
    exact wrap_grows _ (orElse_grows ((ensureCacheAtState_grows s).bind fun _ => Grows.reads _))
  | score s sym =>
    refine wrap_grows _ fun m r m' h => ?_
    unfold symLMScore at h
    simp only at h
    generalize (if sym = 0 then (0 : Int) else m.symbols.findLabel (encode sym)) = idx at h
    by_cases hi : idx ≥ 0
    · rw [if_pos hi] at h; exact orElse_grows (lookup_grows Data.costs s _) _ _ _ h
    · rw [if_neg hi] at h
      simp only [Except.ok.injEq, Prod.mk.injEq] at h
      obtain ⟨_, rfl⟩ := h; exact .refl _
  | update s ys count =>
    refine wrap_grows _ fun m r m' h => ?_
    unfold updateLMCounts at h
    by_cases hi : (m.static || decide (count ≤ 0)) = true
    · rw [if_pos hi] at h
      simp only [Except.ok.injEq, Prod.mk.injEq] at h
      obtain ⟨_, rfl⟩ := h; exact .refl _
    · rw [if_neg hi] at h
      exact orElse_grows (updateSymbols_grows encode count ys s) _ _ _ h
  | logProbs ys => exact wrap_grows _ fun m r m' h => getNegLogProbsFrom_grows ys _ m r m' h

theorem run_grows {encode : Int → Str} {m m' : Model A} {tr : List (Op × Answer A)} (h : Run encode m tr m') :
    Appended m.core.fst m'.core.fst := by
  induction h with
  | nil => exact .refl _
  | cons _ hs _ ih => exact (step_grows encode _ _ _ _ hs).trans ih

end Mozolm.Ppm
