import Verif.Ppm.Grows

/-!
# How far the access counter of the cache moves

`cache_accessed_` (ppm_as_fst_model.h:326) is an `int` that every use of a cache entry increments.  The model has it as
an unbounded number; here it is bounded by what the calls do.
-/

namespace Mozolm.Ppm
variable {A : Arith} {mo : Int}

/-- A function that keeps the maximal order and adds at most `k` to the counter. -/
def Ticks {β : Type} (mo : Int) (k : Nat) (x : PM A β) : Prop :=
  ∀ m r m', m.core.maxOrder = mo → x m = .ok (r, m') → m'.core.maxOrder = mo ∧ m.counter ≤ m'.counter ∧
    m'.counter ≤ m.counter + k

theorem Ticks.mono {β : Type} {k k' : Nat} {x : PM A β} (h : Ticks mo k x) (hk : k ≤ k') : Ticks mo k' x := by
  intro m r m' hm hx
  obtain ⟨h1, h2, h3⟩ := h m r m' hm hx
  exact ⟨h1, h2, by omega⟩

theorem Ticks.pure {β : Type} (b : β) : Ticks (A := A) mo 0 (Pure.pure b) := by
  intro m r m' hm h
  injection h with h
  injection h with _ h
  subst h; exact ⟨hm, by omega, by omega⟩

theorem Ticks.fail {β : Type} : Ticks (A := A) (β := β) mo 0 PM.fail := by
  intro m r m' hm h
  injection h with h
  injection h with _ h
  subst h; exact ⟨hm, by omega, by omega⟩

theorem Ticks.bind {β γ : Type} {j k : Nat} {x : PM A β} {f : β → PM A γ} (h : Ticks mo j x) (h' : ∀ b, Ticks mo k (f b)) :
    Ticks mo (j + k) (x >>= f) := by
  intro m r m' h0 hm
  have hb : (x >>= f) m = (match x m with
      | .error e => .error e
      | .ok (none, m') => .ok (none, m')
      | .ok (some a, m') => f a m') := rfl
  rw [hb] at hm
  match hx : x m, hm with
  | .ok (none, m1), hm =>
    simp only [Except.ok.injEq, Prod.mk.injEq] at hm
    obtain ⟨_, rfl⟩ := hm
    obtain ⟨h1, h2, h3⟩ := h _ _ _ h0 hx
    exact ⟨h1, h2, by omega⟩
  | .ok (some a, m1), hm =>
    obtain ⟨h1, h2, h3⟩ := h _ _ _ h0 hx
    obtain ⟨h4, h5, h6⟩ := h' a _ _ _ h1 hm
    exact ⟨h4, by omega, by omega⟩

theorem Ticks.free {β γ : Type} {k : Nat} {x : PM A β} {f : β → PM A γ} (h : Ticks mo 0 x) (h' : ∀ b, Ticks mo k (f b)) :
    Ticks mo k (x >>= f) := (h.bind h').mono (by omega)

theorem Ticks.reads {β : Type} (g : Model A → Res β) : Ticks mo 0 (PM.reads g) := by
  intro m r m' hm h
  unfold PM.reads at h
  match g m, h with
  | .ok none, h =>
    simp only [Except.ok.injEq, Prod.mk.injEq] at h
    obtain ⟨_, rfl⟩ := h; exact ⟨hm, by omega, by omega⟩
  | .ok (some a), h =>
    simp only [Except.ok.injEq, Prod.mk.injEq] at h
    obtain ⟨_, rfl⟩ := h; exact ⟨hm, by omega, by omega⟩

theorem Ticks.tick {g : Model A → Model A} (h : ∀ m, (g m).core = m.core ∧ (g m).counter = m.counter + 1) :
    Ticks mo 1 (PM.modify g) := by
  intro m r m' h0 hm
  injection hm with hm
  injection hm with _ hm
  subst hm
  obtain ⟨h1, h2⟩ := h m
  exact ⟨by rw [h1]; exact h0, by omega, by omega⟩

/-- reading a new automaton, storing it and going on -/
theorem Ticks.coreThen {β γ : Type} {k : Nat} {g : Model A → Res β} {f : Model A → β → Core A.C} {rest : β → PM A γ}
    (h : ∀ m b, g m = Pure.pure b → (f m b).maxOrder = m.core.maxOrder) (h' : ∀ b, Ticks mo k (rest b)) :
    Ticks mo k (PM.reads g >>= fun b => (PM.modify fun m => m.setCore (f m b)) >>= fun _ => rest b) := by
  intro m r m' h0 hm
  have hb : (PM.reads g >>= fun b => (PM.modify fun m => m.setCore (f m b)) >>= fun _ => rest b) m = (match PM.reads g m with
      | .error e => .error e
      | .ok (none, m') => .ok (none, m')
      | .ok (some a, m') => rest a (m'.setCore (f m' a))) := rfl
  rw [hb] at hm
  unfold PM.reads at hm
  match hg : g m, hm with
  | .error e, hm => cases hm
  | .ok none, hm =>
    simp only [Except.ok.injEq, Prod.mk.injEq] at hm
    obtain ⟨_, rfl⟩ := hm; exact ⟨h0, by omega, by omega⟩
  | .ok (some b), hm =>
    have := h' b (m.setCore (f m b)) r m' (by show (f m b).maxOrder = mo; rw [h m b hg, h0]) hm
    exact this

theorem Ticks.core {β : Type} {g : Model A → Res β} {f : Model A → β → Core A.C}
    (h : ∀ m b, g m = Pure.pure b → (f m b).maxOrder = m.core.maxOrder) :
    Ticks mo 0 (PM.reads g >>= fun b => PM.modify fun m => m.setCore (f m b)) :=
  Ticks.coreThen (rest := fun _ => (Pure.pure () : PM A Unit)) h fun _ => Ticks.pure ()

theorem getNewCacheIndex_ticks (s : Int) : Ticks (A := A) mo 0 (getNewCacheIndex s) := by
  intro m r m' h0 h
  have key : m'.core = m.core ∧ m'.counter = m.counter := by
    unfold getNewCacheIndex at h
    by_cases hl : (m.cache.length : Int) < m.maxCache
    · rw [if_pos hl] at h
      simp only [Except.ok.injEq, Prod.mk.injEq] at h
      obtain ⟨_, rfl⟩ := h; exact ⟨rfl, rfl⟩
    · rw [if_neg hl] at h
      match hf : findOldest m.cache, h with
      | .ok none, h =>
        simp only [Except.ok.injEq, Prod.mk.injEq] at h
        obtain ⟨_, rfl⟩ := h; exact ⟨rfl, rfl⟩
      | .ok (some i), h =>
        simp only at h
        match m.cache[i]?, h with
        | some old, h =>
          simp only at h
          match indexOf m old.state, h with
          | .ok none, h =>
            simp only [Except.ok.injEq, Prod.mk.injEq] at h
            obtain ⟨_, rfl⟩ := h; exact ⟨rfl, rfl⟩
          | .ok (some j), h =>
            simp only at h
            by_cases hj : j ≠ (i : Int)
            · rw [if_pos hj] at h
              simp only [Except.ok.injEq, Prod.mk.injEq] at h
              obtain ⟨_, rfl⟩ := h; exact ⟨rfl, rfl⟩
            · rw [if_neg hj] at h
              simp only [Except.ok.injEq, Prod.mk.injEq] at h
              obtain ⟨_, rfl⟩ := h; exact ⟨rfl, rfl⟩
  exact ⟨by rw [key.1]; exact h0, by omega, by omega⟩

theorem store_ticks (s : Int) (d : Data A.C) : Ticks mo 1 (store s d) := by
  unfold store
  refine (Ticks.reads _).free fun i => Ticks.free ?_ fun _ => ?_
  · unfold ensureIndex
    by_cases hi : i < 0
    · rw [if_pos hi]; exact getNewCacheIndex_ticks s
    · rw [if_neg hi]; exact Ticks.pure _
  exact (Ticks.reads _).free fun _ => (Ticks.reads _).free fun _ => Ticks.tick fun _ => ⟨rfl, rfl⟩

theorem updateCacheAtStateWith_ticks {ensure : Int → PM A (Entry A.C)} {k : Nat} (h : ∀ s, Ticks mo k (ensure s)) (s : Int) :
    Ticks mo (k + 1) (updateCacheAtStateWith ensure s) := by
  unfold updateCacheAtStateWith
  refine (Ticks.reads _).free fun n => ?_
  by_cases h1 : s < 0
  · rw [if_pos h1]; exact Ticks.fail.mono (by omega)
  rw [if_neg h1]
  by_cases h2 : s ≥ (n : Int)
  · rw [if_pos h2]; exact Ticks.fail.mono (by omega)
  rw [if_neg h2]
  refine (Ticks.reads _).free fun bo => Ticks.bind ?_ fun bd => (Ticks.reads _).free fun d => store_ticks s d
  unfold backoffData
  by_cases hb : bo ≥ 0
  · rw [if_pos hb]; exact ((h bo).bind fun _ => Ticks.pure _).mono (by omega)
  · rw [if_neg hb]; exact (Ticks.pure _).mono (by omega)

theorem ensureCache_ticks : ∀ (k : Nat) (s : Int), Ticks (A := A) mo k (ensureCache k s)
  | 0, s => fun m r m' _ h => by cases h
  | k + 1, s => by
    unfold ensureCache
    refine (Ticks.reads _).free fun stale => ?_
    cases stale with
    | true =>
      refine ((updateCacheAtStateWith_ticks (ensureCache_ticks k) s).bind (k := 0) fun _ => ?_).mono (by omega)
      refine (Ticks.reads _).free fun i => (Ticks.reads _).free fun size => ?_
      by_cases h1 : i < 0
      · rw [if_pos h1]; exact Ticks.fail
      rw [if_neg h1]
      by_cases h2 : i ≥ (size : Int)
      · rw [if_pos h2]; exact Ticks.fail
      rw [if_neg h2]
      refine (Ticks.reads _).free fun e => ?_
      by_cases h3 : e.state ≠ s
      · rw [if_pos h3]; exact Ticks.fail
      rw [if_neg h3]
      exact Ticks.pure _
    | false =>
      refine (Ticks.free (k := 1) (Ticks.pure ()) fun _ => ?_).mono (by omega)
      refine (Ticks.reads _).free fun i => (Ticks.reads _).free fun size => ?_
      by_cases h1 : i < 0
      · rw [if_pos h1]; exact Ticks.fail.mono (by omega)
      rw [if_neg h1]
      by_cases h2 : i ≥ (size : Int)
      · rw [if_pos h2]; exact Ticks.fail.mono (by omega)
      rw [if_neg h2]
      refine (Ticks.reads _).free fun e => ?_
      by_cases h3 : e.state ≠ s
      · rw [if_pos h3]; exact Ticks.fail.mono (by omega)
      rw [if_neg h3]
      simp only [Bool.false_eq_true, if_false]
      exact (Ticks.reads _).free fun _ => (Ticks.bind (j := 1) (k := 0) (Ticks.tick fun _ => ⟨rfl, rfl⟩) fun _ => Ticks.pure _)

/-- the depth of the backoffs: uses of cache entries per look at a state -/
def depth (mo : Int) : Nat := mo.toNat + 2

theorem ensureCacheAtState_ticks (s : Int) : Ticks (A := A) mo (depth mo) (ensureCacheAtState s) := by
  intro m r m' hm h
  have := ensureCache_ticks (mo := mo) m.fuel s m r m' hm h
  unfold Model.fuel at this
  rw [hm] at this
  exact this

theorem lookup_ticks {α : Type} (g : Data A.C → List α) (s y : Int) : Ticks (A := A) mo (depth mo)
    (do let e ← ensureCacheAtState s; PM.reads fun _ => verified (g e.data) y) :=
  (ensureCacheAtState_ticks s).bind fun _ => Ticks.reads _

theorem addNewState_order {c : Core A.C} {bo : Nat} {r : Core A.C × Nat} (h : addNewState A c bo = pure r) :
    r.1.maxOrder = c.maxOrder := by
  unfold addNewState at h
  simp only at h
  by_cases hn : c.fst.states.length ≠ c.orders.length
  · rw [if_pos hn] at h; cases h
  rw [if_neg hn] at h
  obtain ⟨ob, _, h⟩ := Res.bind_eq.mp h
  rw [← Res.pure_inj h]

theorem updateHighestFound_order {c c' : Core A.C} {curr sym : Int} (h : updateHighestFound A c curr sym = pure c') :
    c'.maxOrder = c.maxOrder := by
  unfold updateHighestFound at h
  cases hst : c.fst.state? curr with
  | none => rw [hst] at h; cases h
  | some st =>
    rw [hst] at h
    simp only at h
    by_cases hy : sym = 0
    · rw [if_pos hy] at h
      rw [← Res.pure_inj h]
    rw [if_neg hy] at h
    match hs : splitArc sym st.arcs, h with
    | none, h => cases h
    | some (pre, a, post), h =>
      simp only at h
      obtain ⟨needs, _, h⟩ := Res.bind_eq.mp h
      cases needs with
      | true =>
        simp only [if_true] at h
        obtain ⟨r, h1, h⟩ := Res.bind_eq.mp h
        rw [← Res.pure_inj h]
        exact (addNewState_order h1).trans rfl
      | false =>
        simp only [Bool.false_eq_true, if_false] at h
        rw [← Res.pure_inj h]

theorem updateNotFound_order {c c' : Core A.C} {curr dest sym : Int} (h : updateNotFound A c curr dest sym = pure c') :
    c'.maxOrder = c.maxOrder := by
  unfold updateNotFound at h
  by_cases hy : sym = 0
  · rw [if_pos hy] at h
    cases hst : c.fst.state? curr with
    | none => rw [hst] at h; cases h
    | some st =>
      rw [hst] at h
      rw [← Res.pure_inj h]
  rw [if_neg hy] at h
  obtain ⟨needs, _, h⟩ := Res.bind_eq.mp h
  obtain ⟨r, h1, h⟩ := Res.bind_eq.mp h
  have hl : r.1.maxOrder = c.maxOrder := by
    unfold newDestination at h1
    cases needs with
    | true => exact addNewState_order h1
    | false =>
      simp only [Bool.false_eq_true, if_false] at h1
      rw [← Res.pure_inj h1]
  cases hst : r.1.fst.state? curr with
  | none => rw [hst] at h; cases h
  | some st =>
    rw [hst] at h
    rw [← Res.pure_inj h]
    exact hl

/-- uses of cache entries per observation and state -/
def perState (mo : Int) : Nat := 2 * depth mo + 1

theorem updateModel_ticks : ∀ (k : Nat) (curr highest sym : Int),
    Ticks (A := A) mo (k * perState mo) (updateModel k curr highest sym)
  | 0, _, _, _ => fun m r m' _ h => by cases h
  | k + 1, curr, highest, sym => by
    have hrest : ∀ r : Fst A.C × Int, Ticks (A := A) mo ((k + 1) * perState mo) (do
        updateCounts (updateModel k r.2 highest sym) curr highest sym
        updateCacheAtState curr
        getDestinationState curr sym) := by
      intro r
      refine (Ticks.bind (j := k * perState mo) (k := perState mo) ?_ fun _ => ?_).mono (by rw [Nat.add_mul]; omega)
      · unfold updateCounts
        by_cases he : highest = curr
        · rw [if_pos he]
          exact (Ticks.core (g := fun m => updateHighestFound A m.core curr sym) (f := fun _ c => c)
            fun m b hb => updateHighestFound_order hb).mono (Nat.zero_le _)
        · rw [if_neg he]
          refine ((updateModel_ticks k r.2 highest sym).bind (k := 0) fun dest => ?_).mono (by omega)
          exact Ticks.core (g := fun m => updateNotFound A m.core curr dest sym) (f := fun _ c => c)
            fun m b hb => updateNotFound_order hb
      · refine ((updateCacheAtStateWith_ticks ensureCacheAtState_ticks curr).bind fun _ =>
          lookup_ticks Data.dest curr sym).mono (by unfold perState; omega)
    unfold updateModel
    exact Ticks.coreThen (g := fun m => incrementBackoffArc A m.core.fst curr) (f := fun m r => { m.core with fst := r.1 })
      (fun m b hb => rfl) hrest

/-- uses of cache entries per observation -/
def perCount (mo : Int) : Nat := depth mo * perState mo

theorem observe_ticks (curr highest sym : Int) : Ticks (A := A) mo (perCount mo) (observe curr highest sym) := by
  intro m r m' hm h
  have := updateModel_ticks (mo := mo) m.fuel curr highest sym m r m' hm h
  unfold Model.fuel at this
  rw [hm] at this
  exact this

/-- uses of cache entries per symbol of `GetNegLogProbs` -/
def perSymbol (mo : Int) : Nat := 3 * depth mo + perCount mo

theorem getNegLogProbsFrom_ticks : ∀ (ys : List Int) (s : Int),
    Ticks (A := A) mo (ys.length * perSymbol mo) (getNegLogProbsFrom s ys)
  | [], s => (Ticks.pure _).mono (Nat.zero_le _)
  | y :: ys, s => by
    unfold getNegLogProbsFrom
    have hw : ∀ b : Bool, Ticks (A := A) mo (depth mo + perCount mo) (whenM (!b) (do
        let o ← getArcOriginState s y
        let _ ← observe s o y
        pure ())) := by
      intro b
      cases b with
      | false =>
        exact ((lookup_ticks Data.origin s y).bind fun o => (observe_ticks s o y).bind fun _ => Ticks.pure _).mono (by omega)
      | true => exact (Ticks.pure _).mono (Nat.zero_le _)
    refine ((lookup_ticks Data.costs s y).bind fun c => (Ticks.reads _).free fun static => (hw static).bind fun _ =>
      (lookup_ticks Data.dest s y).bind fun d => (getNegLogProbsFrom_ticks ys d).bind fun _ => Ticks.pure _).mono ?_
    rw [List.length_cons, Nat.add_mul, Nat.one_mul]
    have : perSymbol mo = 3 * depth mo + perCount mo := rfl
    omega

/-- A public function that adds at most `k` to the counter. -/
def Ticks' {β : Type} (mo : Int) (k : Nat) (f : Model A → Except Fault (β × Model A)) : Prop :=
  ∀ m r m', m.core.maxOrder = mo → f m = .ok (r, m') → m'.core.maxOrder = mo ∧ m.counter ≤ m'.counter ∧
    m'.counter ≤ m.counter + k

theorem Ticks'.mono {β : Type} {k k' : Nat} {f : Model A → Except Fault (β × Model A)} (h : Ticks' mo k f) (hk : k ≤ k') :
    Ticks' mo k' f := by
  intro m r m' hm hx
  obtain ⟨h1, h2, h3⟩ := h m r m' hm hx
  exact ⟨h1, h2, by omega⟩

theorem orElse_ticks {α β : Type} {j : Nat} {x : PM A α} {k : α → β} {n : Model A → Except Fault β} (h : Ticks mo j x) :
    Ticks' mo j (orElse x k n) := by
  intro m r m' h0 hm
  unfold orElse at hm
  match hx : x m, hm with
  | .ok (some a, m1), hm =>
    simp only [Except.ok.injEq, Prod.mk.injEq] at hm
    obtain ⟨_, rfl⟩ := hm; exact h _ _ _ h0 hx
  | .ok (none, m1), hm =>
    simp only at hm
    match n m1, hm with
    | .ok b, hm =>
      simp only [Except.ok.injEq, Prod.mk.injEq] at hm
      obtain ⟨_, rfl⟩ := hm; exact h _ _ _ h0 hx

theorem Ticks'.total {β : Type} {k : Nat} {f : Model A → Except Fault (β × Model A)} (h : Ticks' mo k f) :
    Ticks mo k (PM.total f) := by
  intro m r m' h0 hm
  unfold PM.total at hm
  match hx : f m, hm with
  | .ok (b, m1), hm =>
    simp only [Except.ok.injEq, Prod.mk.injEq] at hm
    obtain ⟨_, rfl⟩ := hm; exact h _ _ _ h0 hx

theorem nextState_ticks (encode : Int → Str) (s sym : Int) : Ticks' (A := A) mo (depth mo) (nextState encode s sym) := by
  intro m r m' h0 h
  unfold nextState at h
  simp only at h
  by_cases hi : m.symbols.findLabel (encode sym) > 0
  · rw [if_pos hi] at h; exact orElse_ticks (lookup_ticks Data.dest s _) _ _ _ h0 h
  · rw [if_neg hi] at h; exact (orElse_ticks Ticks.fail).mono (Nat.zero_le _) _ _ _ h0 h

theorem observeAgain_ticks (s sym : Int) : ∀ k, Ticks (A := A) mo (k * perCount mo) (observeAgain s sym k)
  | 0 => (Ticks.pure _).mono (Nat.zero_le _)
  | k + 1 => by
    unfold observeAgain
    refine ((observe_ticks s s sym).bind fun _ => observeAgain_ticks s sym k).mono ?_
    rw [Nat.add_mul]; omega

/-- uses of cache entries per symbol of `UpdateLMCounts` -/
def perUpdate (mo count : Int) : Nat := 2 * depth mo + max 1 count.toNat * perCount mo

theorem updateSymbols_ticks (encode : Int → Str) (count : Int) : ∀ (ys : List Int) (s : Int),
    Ticks (A := A) mo (ys.length * perUpdate mo count) (updateSymbols encode count s ys)
  | [], s => (Ticks.pure _).mono (Nat.zero_le _)
  | y :: ys, s => by
    unfold updateSymbols
    refine (Ticks.bind (j := perUpdate mo count) ?_ fun t => updateSymbols_ticks encode count ys t).mono (by
      rw [List.length_cons, Nat.add_mul]; omega)
    unfold updateSymbol
    refine (Ticks.reads _).free fun idx => ?_
    by_cases h : idx < 0
    · rw [if_pos h]; exact (Ticks.reads _).mono (Nat.zero_le _)
    rw [if_neg h]
    refine ((lookup_ticks Data.origin s idx).bind fun o => (observe_ticks s o idx).bind fun _ =>
      (observeAgain_ticks s idx _).bind fun _ => (nextState_ticks encode s y).total).mono ?_
    unfold perUpdate
    have e : max 1 count.toNat = (count - 1).toNat + 1 := by omega
    rw [e, Nat.add_mul]
    omega

theorem wrap_ticks {β γ : Type} {j : Nat} (k : β → γ) {f : Model A → Except Fault (β × Model A)} (h : Ticks' mo j f) :
    Ticks' mo j (wrap k f) := by
  intro m r m' h0 hm
  unfold wrap at hm
  match hx : f m, hm with
  | .ok (b, m1), hm =>
    simp only [Except.ok.injEq, Prod.mk.injEq] at hm
    obtain ⟨_, rfl⟩ := hm; exact h _ _ _ h0 hx

/-- The most a call can add to the counter. -/
def Op.uses (mo : Int) : Op → Nat
  | .next _ _ => depth mo
  | .scores _ => depth mo
  | .score _ _ => depth mo
  | .update _ ys count => ys.length * perUpdate mo count
  | .logProbs ys => ys.length * perSymbol mo

theorem step_ticks (encode : Int → Str) (op : Op) : Ticks' (A := A) mo (op.uses mo) (step encode op) := by
  cases op with
  | next s sym => exact wrap_ticks _ (nextState_ticks encode s sym)
  | scores s =>
    exact wrap_ticks _ (orElse_ticks ((ensureCacheAtState_ticks s).bind fun _ => Ticks.reads _))
  | score s sym =>
    refine wrap_ticks _ fun m r m' h0 h => ?_
    unfold symLMScore at h
    simp only at h
    generalize (if sym = 0 then (0 : Int) else m.symbols.findLabel (encode sym)) = idx at h
    by_cases hi : idx ≥ 0
    · rw [if_pos hi] at h; exact orElse_ticks (lookup_ticks Data.costs s _) _ _ _ h0 h
    · rw [if_neg hi] at h
      simp only [Except.ok.injEq, Prod.mk.injEq] at h
      obtain ⟨_, rfl⟩ := h; exact ⟨h0, by omega, by omega⟩
  | update s ys count =>
    refine wrap_ticks _ fun m r m' h0 h => ?_
    unfold updateLMCounts at h
    by_cases hi : (m.static || decide (count ≤ 0)) = true
    · rw [if_pos hi] at h
      simp only [Except.ok.injEq, Prod.mk.injEq] at h
      obtain ⟨_, rfl⟩ := h; exact ⟨h0, by omega, by omega⟩
    · rw [if_neg hi] at h
      exact orElse_ticks (updateSymbols_ticks encode count ys s) _ _ _ h0 h
  | logProbs ys => exact wrap_ticks _ fun m r m' h0 h => getNegLogProbsFrom_ticks ys _ m r m' h0 h

theorem run_ticks {encode : Int → Str} {m m' : Model A} {tr : List (Op × Answer A)} (h : Run encode m tr m') :
    m'.core.maxOrder = m.core.maxOrder ∧ m.counter ≤ m'.counter ∧
      m'.counter ≤ m.counter + ((tr.map fun x => x.1.uses m.core.maxOrder).sum : Nat) := by
  induction h with
  | nil => exact ⟨rfl, by omega, by simp⟩
  | @cons m op a m1 tr m2 _ hs _ ih =>
    obtain ⟨h1, h2, h3⟩ := step_ticks (mo := m.core.maxOrder) encode _ _ _ _ rfl hs
    rw [h1] at ih
    obtain ⟨h4, h5, h6⟩ := ih
    refine ⟨h4, by omega, ?_⟩
    simp only [List.map_cons, List.sum_cons]
    omega

/-! ## At least one -/

/-- A function that adds at least one to the counter if it succeeds. -/
def Clicks {β : Type} (x : PM A β) : Prop := ∀ m b m', x m = .ok (some b, m') → m.counter + 1 ≤ m'.counter

/-- A function that never lowers it. -/
def NeverDown {β : Type} (x : PM A β) : Prop := ∀ m b m', x m = .ok (b, m') → m.counter ≤ m'.counter

theorem Ticks.keeps {β : Type} {k : Nat} {x : PM A β} (h : ∀ mo, Ticks mo k x) : NeverDown x :=
  fun m b m' hx => (h m.core.maxOrder m b m' rfl hx).2.1

theorem bind_some {β γ : Type} {x : PM A β} {f : β → PM A γ} {m m' : Model A} {c : γ} (h : (x >>= f) m = .ok (some c, m')) :
    ∃ b m1, x m = .ok (some b, m1) ∧ f b m1 = .ok (some c, m') := by
  have hb : (x >>= f) m = (match x m with
      | .error e => .error e
      | .ok (none, m') => .ok (none, m')
      | .ok (some a, m') => f a m') := rfl
  rw [hb] at h
  match hx : x m, h with
  | .ok (none, m1), h => simp at h
  | .ok (some a, m1), h => exact ⟨a, m1, rfl, h⟩

theorem Clicks.bind {β γ : Type} {x : PM A β} {f : β → PM A γ} (h : Clicks x) (h' : ∀ b, NeverDown (f b)) : Clicks (x >>= f) := by
  intro m c m' hm
  obtain ⟨b, m1, h1, h2⟩ := bind_some hm
  have := h _ _ _ h1
  have := h' b _ _ _ h2
  omega

theorem Clicks.after {β γ : Type} {x : PM A β} {f : β → PM A γ} (h : NeverDown x) (h' : ∀ b, Clicks (f b)) : Clicks (x >>= f) := by
  intro m c m' hm
  obtain ⟨b, m1, h1, h2⟩ := bind_some hm
  have := h _ _ _ h1
  have := h' b _ _ _ h2
  omega

theorem Clicks.tick {g : Model A → Model A} (h : ∀ m, (g m).counter = m.counter + 1) : Clicks (PM.modify g) := by
  intro m r m' hm
  injection hm with hm
  injection hm with _ hm
  subst hm
  rw [h]; omega

theorem Clicks.fail {β : Type} : Clicks (A := A) (β := β) PM.fail := by
  intro m b m' h
  injection h with h
  injection h with h _
  cases h

theorem store_clicks (s : Int) (d : Data A.C) : Clicks (store s d) := by
  unfold store
  refine .after (Ticks.keeps fun _ => Ticks.reads _) fun i => .after (Ticks.keeps (k := 0) fun mo => ?_) fun _ => ?_
  · unfold ensureIndex
    by_cases hi : i < 0
    · rw [if_pos hi]; exact getNewCacheIndex_ticks s
    · rw [if_neg hi]; exact Ticks.pure _
  exact .after (Ticks.keeps fun _ => Ticks.reads _) fun _ => .after (Ticks.keeps fun _ => Ticks.reads _) fun _ =>
    Clicks.tick fun _ => rfl

theorem ensureCache_clicks (k : Nat) (s : Int) : Clicks (A := A) (ensureCache k s) := by
  cases k with
  | zero => intro m b m' h; cases h
  | succ k =>
    unfold ensureCache
    refine .after (Ticks.keeps fun _ => Ticks.reads _) fun stale => ?_
    cases stale with
    | true =>
      refine Clicks.bind ?_ fun _ => Ticks.keeps (k := 0) fun mo => ?_
      · unfold whenM updateCacheAtStateWith
        simp only [if_true]
        refine .after (Ticks.keeps fun _ => Ticks.reads _) fun n => ?_
        by_cases h1 : s < 0
        · rw [if_pos h1]; exact .fail
        rw [if_neg h1]
        by_cases h2 : s ≥ (n : Int)
        · rw [if_pos h2]; exact .fail
        rw [if_neg h2]
        refine .after (Ticks.keeps fun _ => Ticks.reads _) fun bo => .after (Ticks.keeps (k := k) fun mo => ?_) fun bd =>
          .after (Ticks.keeps fun _ => Ticks.reads _) fun d => store_clicks s d
        unfold backoffData
        by_cases hb : bo ≥ 0
        · rw [if_pos hb]; exact (ensureCache_ticks k bo).bind fun _ => Ticks.pure _
        · rw [if_neg hb]; exact (Ticks.pure _).mono (by omega)
      · refine (Ticks.reads _).free fun i => (Ticks.reads _).free fun size => ?_
        by_cases h1 : i < 0
        · rw [if_pos h1]; exact Ticks.fail
        rw [if_neg h1]
        by_cases h2 : i ≥ (size : Int)
        · rw [if_pos h2]; exact Ticks.fail
        rw [if_neg h2]
        refine (Ticks.reads _).free fun e => ?_
        by_cases h3 : e.state ≠ s
        · rw [if_pos h3]; exact Ticks.fail
        rw [if_neg h3]
        exact Ticks.pure _
    | false =>
      refine .after (Ticks.keeps (k := 0) fun _ => Ticks.pure _) fun _ => .after (Ticks.keeps fun _ => Ticks.reads _) fun i =>
        .after (Ticks.keeps fun _ => Ticks.reads _) fun size => ?_
      by_cases h1 : i < 0
      · rw [if_pos h1]; exact .fail
      rw [if_neg h1]
      by_cases h2 : i ≥ (size : Int)
      · rw [if_pos h2]; exact .fail
      rw [if_neg h2]
      refine .after (Ticks.keeps fun _ => Ticks.reads _) fun e => ?_
      by_cases h3 : e.state ≠ s
      · rw [if_pos h3]; exact .fail
      rw [if_neg h3]
      simp only [Bool.false_eq_true, if_false]
      exact .after (Ticks.keeps fun _ => Ticks.reads _) fun _ => (Clicks.tick fun _ => rfl).bind fun _ =>
        Ticks.keeps fun _ => Ticks.pure _

theorem extractLMScores_clicks {s : Int} {m m' : Model A} {r : LMScores A.D} (h : extractLMScores s m = .ok (some r, m')) :
    m.counter + 1 ≤ m'.counter := by
  unfold extractLMScores orElse at h
  have hc : Clicks (A := A) (do
      let e ← ensureCacheAtState s
      PM.reads fun m => fillLMScores m.symbols e.data) :=
    Clicks.bind (fun m b m' hx => ensureCache_clicks m.fuel s m b m' hx) fun _ => Ticks.keeps fun _ => Ticks.reads _
  match hx : (do
      let e ← ensureCacheAtState s
      PM.reads fun m => fillLMScores m.symbols e.data : PM A (LMScores A.D)) m, h with
  | .ok (some a, m1), h =>
    simp only [Except.ok.injEq, Prod.mk.injEq] at h
    obtain ⟨_, rfl⟩ := h
    exact hc _ _ _ hx
  | .ok (none, m1), h => simp at h

end Mozolm.Ppm
