import Verif.Ppm.Shuffle

/-!
# Two models that differ in the order of arcs give the same answers
-/

namespace Mozolm.Ppm
variable {A : Arith} {full : Bool}

/-- The same orders and limits, and the same automaton up to the order of arcs.  Unless `full`, the orders, which only
updates read, may differ. -/
structure CoreLike (A : Arith) (full : Bool) (c c' : Core A.C) : Prop where
  fst : FstLike A c.fst c'.fst
  orders : full = true → c.orders = c'.orders
  maxOrder : c.maxOrder = c'.maxOrder

theorem CoreLike.refl (c : Core A.C) : CoreLike A full c c := ⟨.refl _, fun _ => rfl, rfl⟩

/-- Models that are the same up to the order of arcs, caches included. -/
inductive ModelLike (full : Bool) (m : Model A) : Model A → Prop
  | mk {c' : Core A.C} {st : Bool} : CoreLike A full m.core c' → (full = true → st = m.static) →
      (∀ e ∈ m.cache, Even e.data) → ModelLike full m { m with core := c', static := st }

/-- The same kind of result with related values, leaving models that are the same up to the order of arcs. -/
inductive Outcome {β γ : Type} (full : Bool) (R : β → γ → Prop) : Except Fault (Option β × Model A) →
    Except Fault (Option γ × Model A) → Prop
  | error (e : Fault) : Outcome full R (.error e) (.error e)
  | fail {m n : Model A} : ModelLike full m n → Outcome full R (.ok (none, m)) (.ok (none, n))
  | ok {m n : Model A} {b : β} {c : γ} : R b c → ModelLike full m n → Outcome full R (.ok (some b, m)) (.ok (some c, n))

/-- Two computations that do the same on models that are the same up to the order of arcs. -/
def Lock {β γ : Type} (full : Bool) (R : β → γ → Prop) (x : PM A β) (y : PM A γ) : Prop :=
  ∀ m n : Model A, ModelLike full m n → Outcome full R (x m) (y n)

theorem Lock.pure {β γ : Type} {R : β → γ → Prop} {b : β} {c : γ} (h : R b c) :
    Lock (A := A) full R (Pure.pure b) (Pure.pure c) := fun _ _ hm => .ok h hm

theorem Lock.fail {β γ : Type} {R : β → γ → Prop} : Lock (A := A) full R PM.fail PM.fail := fun _ _ hm => .fail hm

theorem Lock.bind {β γ β' γ' : Type} {R : β → γ → Prop} {Q : β' → γ' → Prop} {x : PM A β} {y : PM A γ}
    {f : β → PM A β'} {g : γ → PM A γ'} (h : Lock full R x y) (h' : ∀ b c, R b c → Lock full Q (f b) (g c)) :
    Lock full Q (x >>= f) (y >>= g) := by
  intro m n hm
  show Outcome full Q (match x m with
      | .error e => .error e
      | .ok (none, m') => .ok (none, m')
      | .ok (some a, m') => f a m') (match y n with
      | .error e => .error e
      | .ok (none, m') => .ok (none, m')
      | .ok (some a, m') => g a m')
  have := h m n hm
  generalize x m = r1 at this ⊢
  generalize y n = r2 at this ⊢
  cases this with
  | error e => exact .error e
  | fail h1 => exact .fail h1
  | ok h1 h2 => exact h' _ _ h1 _ _ h2

theorem Lock.seq {β β' γ' : Type} {Q : β' → γ' → Prop} {x y : PM A β}
    {f : β → PM A β'} {g : β → PM A γ'} (h : Lock full Eq x y) (h' : ∀ b, Lock full Q (f b) (g b)) :
    Lock full Q (x >>= f) (y >>= g) := h.bind fun b c e => by subst e; exact h' b

theorem Lock.reads {β γ : Type} {R : β → γ → Prop} {f : Model A → Res β} {g : Model A → Res γ}
    (h : ∀ m n, ModelLike full m n → Agree R (f m) (g n)) : Lock full R (PM.reads f) (PM.reads g) := by
  intro m n hm
  have := h m n hm
  unfold PM.reads
  generalize f m = r1 at this ⊢
  generalize g n = r2 at this ⊢
  cases this with
  | fault e => exact .error e
  | fail => exact .fail hm
  | ok h1 => exact .ok h1 hm

/-- a reading that does not look at the automaton -/
theorem Lock.reads_eq {β : Type} {f : Model A → Res β}
    (h : ∀ m (c' : Core A.C) st, CoreLike A full m.core c' → f { m with core := c', static := st } = f m) :
    Lock full Eq (PM.reads f) (PM.reads f) := by
  refine Lock.reads fun m n hm => ?_
  cases hm with
  | mk h1 h2 h3 => rw [h m _ _ h1]; exact .refl _

theorem Lock.modify {f g : Model A → Model A} (h : ∀ m n, ModelLike full m n → ModelLike full (f m) (g n)) :
    Lock full Eq (PM.modify f) (PM.modify g) := fun m n hm => .ok rfl (h m n hm)

/-- related entries: the same, with vectors of one length -/
def EntryLike (e e' : Entry A.C) : Prop := e = e' ∧ Even e.data

theorem indexOf_lock (s : Int) : Lock (A := A) full Eq (PM.reads fun m => indexOf m s) (PM.reads fun m => indexOf m s) :=
  Lock.reads_eq fun _ _ _ _ => rfl

theorem entryAt_even {m : Model A} {i : Int} {e : Entry A.C} (h : entryAt m i = pure e) (he : ∀ e ∈ m.cache, Even e.data) :
    Even e.data := by
  unfold entryAt at h
  by_cases hi : i < 0
  · rw [if_pos hi] at h; cases h
  · rw [if_neg hi] at h
    cases hg : m.cache[i.toNat]? with
    | none => rw [hg] at h; cases h
    | some e' =>
      rw [hg] at h
      have := Res.pure_inj h
      subst this
      exact he _ (List.mem_of_getElem? hg)

theorem entryAt_lock (i : Int) :
    Lock (A := A) full EntryLike (PM.reads fun m => entryAt m i) (PM.reads fun m => entryAt m i) := by
  refine Lock.reads fun m n hm => ?_
  cases hm with
  | mk h1 h2 h3 =>
    show Agree EntryLike (entryAt m i) (entryAt m i)
    match hx : entryAt m i with
    | .error e => exact .fault e
    | .ok none => exact .fail
    | .ok (some e) => exact .ok ⟨rfl, entryAt_even hx h3⟩

theorem even_set {l : List (Entry A.C)} (h : ∀ e ∈ l, Even e.data) {i : Nat} {e : Entry A.C} (he : Even e.data) :
    ∀ x ∈ l.set i e, Even x.data := by
  intro x hx
  rcases List.mem_or_eq_of_mem_set hx with hx | rfl
  · exact h x hx
  · exact he

theorem getNewCacheIndex_lock (s : Int) : Lock (A := A) full Eq (getNewCacheIndex s) (getNewCacheIndex s) := by
  intro m n hm
  cases hm with
  | @mk c' st h1 h2 h3 =>
    have hnew : Even (Entry.new A s).data := ⟨rfl, rfl⟩
    unfold getNewCacheIndex
    simp only
    by_cases hl : (m.cache.length : Int) < m.maxCache
    · rw [if_pos hl, if_pos hl]
      refine .ok rfl (.mk (m := { m with index := _, cache := _ }) h1 h2 ?_)
      intro e he
      rcases List.mem_append.mp he with he | he
      · exact h3 e he
      · simp only [List.mem_singleton] at he; subst he; exact hnew
    · rw [if_neg hl, if_neg hl]
      match findOldest m.cache with
      | .error e => exact .error e
      | .ok none => exact .fail (.mk h1 h2 h3)
      | .ok (some i) =>
        simp only
        cases m.cache[i]? with
        | none => exact .error _
        | some old =>
          have e : indexOf { m with core := c', static := st } old.state = indexOf m old.state := rfl
          simp only [e]
          match indexOf m old.state with
          | .error e => exact .error e
          | .ok none => exact .fail (.mk h1 h2 h3)
          | .ok (some j) =>
            simp only
            by_cases hj : j ≠ (i : Int)
            · rw [if_pos hj, if_pos hj]; exact .fail (.mk h1 h2 h3)
            · rw [if_neg hj, if_neg hj]
              exact .ok rfl (.mk (m := { m with index := _, cache := _ }) h1 h2 (even_set h3 hnew))

theorem store_lock (s : Int) {d : Data A.C} (hd : Even d) : Lock (A := A) full Eq (store s d) (store s d) := by
  unfold store
  refine (indexOf_lock s).seq fun i => ?_
  refine Lock.seq ?_ fun _ => ?_
  · unfold ensureIndex
    by_cases hi : i < 0
    · rw [if_pos hi]; exact getNewCacheIndex_lock s
    · rw [if_neg hi]; exact Lock.pure rfl
  refine (indexOf_lock s).seq fun j => ?_
  refine (entryAt_lock j).bind fun e e' he => ?_
  obtain ⟨rfl, he⟩ := he
  refine Lock.modify fun m n hm => ?_
  cases hm with
  | mk h1 h2 h3 =>
    exact .mk (m := { m with cache := _, counter := _ }) h1 h2 (even_set h3 hd)

/-- `EnsureCacheAtState` in lock step -/
def EnsureLock (full : Bool) (ensure ensure' : Int → PM A (Entry A.C)) : Prop :=
  ∀ s, Lock full EntryLike (ensure s) (ensure' s)

theorem backoffData_lock {ensure ensure' : Int → PM A (Entry A.C)} (h : EnsureLock full ensure ensure') (bo : Int) :
    Lock full (fun d d' => d = d' ∧ Even d) (backoffData ensure bo) (backoffData ensure' bo) := by
  unfold backoffData
  by_cases hb : bo ≥ 0
  · rw [if_pos hb, if_pos hb]
    exact (h bo).bind fun e e' he => Lock.pure ⟨by rw [he.1], he.2⟩
  · rw [if_neg hb, if_neg hb]; exact Lock.pure ⟨rfl, rfl, rfl⟩

theorem getBackoffState_lock (s : Int) : Lock (A := A) full Eq (PM.reads fun m => getBackoffState m.core.fst s)
    (PM.reads fun m => getBackoffState m.core.fst s) :=
  Lock.reads_eq fun m c' st h => (getBackoffState_like h.fst s).symm

theorem length_lock : Lock (A := A) full Eq (PM.reads fun m => pure m.core.fst.states.length)
    (PM.reads fun m => pure m.core.fst.states.length) :=
  Lock.reads_eq fun m _ _ h => by show Pure.pure _ = Pure.pure _; rw [h.fst.length]

theorem updateCacheAtStateWith_lock {ensure ensure' : Int → PM A (Entry A.C)} (h : EnsureLock full ensure ensure') (s : Int) :
    Lock full Eq (updateCacheAtStateWith ensure s) (updateCacheAtStateWith ensure' s) := by
  unfold updateCacheAtStateWith
  refine length_lock.seq fun n => ?_
  by_cases h1 : s < 0
  · rw [if_pos h1, if_pos h1]; exact Lock.fail
  rw [if_neg h1, if_neg h1]
  by_cases h2 : s ≥ (n : Int)
  · rw [if_pos h2, if_pos h2]; exact Lock.fail
  rw [if_neg h2, if_neg h2]
  refine (getBackoffState_lock s).seq fun bo => ?_
  refine (backoffData_lock h bo).bind fun bd bd' hbd => ?_
  obtain ⟨rfl, he⟩ := hbd
  refine Lock.bind (R := fun d d' => d = d' ∧ Even d) (Lock.reads fun m n hm => ?_) fun d d' hd => ?_
  · cases hm with
    | mk k1 k2 k3 =>
      simp only
      rw [← stateData_like k1.fst m.alpha m.beta s bo he]
      match hx : stateData A m.core.fst m.alpha m.beta s bo bd with
      | .error e => exact .fault e
      | .ok none => exact .fail
      | .ok (some d) => exact .ok ⟨rfl, stateData_even hx he⟩
  · obtain ⟨rfl, hd⟩ := hd
    exact store_lock s hd

theorem lowerLoop_like {m : Model A} {c' : Core A.C} {st : Bool} (h : CoreLike A full m.core c') (t : Int) :
    ∀ (k : Nat) (b : Int), lowerLoop { m with core := c', static := st } t k b = lowerLoop m t k b
  | 0, b => rfl
  | k + 1, b => by
    unfold lowerLoop
    by_cases hb : b < 0
    · rw [if_pos hb, if_pos hb]
    rw [if_neg hb, if_neg hb]
    refine (Agree.eq_bind fun i => Agree.eq_bind fun hit => Agree.of_eq ?_).eq
    cases hit with
    | true => rfl
    | false =>
      simp only [Bool.false_eq_true, if_false]
      rw [getBackoffState_like h.fst b]
      exact (Agree.eq_bind fun b' => Agree.of_eq (lowerLoop_like h t k b')).eq

theorem lowerOrder_lock (k : Nat) (s : Int) : Lock (A := A) full Eq (PM.reads fun m => lowerOrderCacheUpdated k m s)
    (PM.reads fun m => lowerOrderCacheUpdated k m s) := by
  refine Lock.reads_eq fun m c' st h => ?_
  unfold lowerOrderCacheUpdated
  refine (Agree.eq_bind fun i => Agree.of_eq ?_).eq
  by_cases hi : i < 0
  · rw [if_pos hi, if_pos hi]
  rw [if_neg hi, if_neg hi]
  refine (Agree.eq_bind fun e => Agree.of_eq ?_).eq
  rw [getBackoffState_like h.fst s]
  exact (Agree.eq_bind fun b => Agree.of_eq (lowerLoop_like h _ k b)).eq

theorem ensureCache_lock : ∀ k, EnsureLock (A := A) full (ensureCache k) (ensureCache k)
  | 0, s => fun m n hm => .error _
  | k + 1, s => by
    unfold ensureCache
    refine (lowerOrder_lock k s).seq fun stale => ?_
    refine Lock.seq ?_ fun _ => ?_
    · cases stale with
      | true => exact updateCacheAtStateWith_lock (ensureCache_lock k) s
      | false => exact Lock.pure rfl
    refine (indexOf_lock s).seq fun i => ?_
    refine (Lock.reads_eq fun m c' st h => rfl).seq fun size => ?_
    by_cases h1 : i < 0
    · rw [if_pos h1]; exact Lock.fail
    rw [if_neg h1]
    by_cases h2 : i ≥ (size : Int)
    · rw [if_pos h2]; exact Lock.fail
    rw [if_neg h2]
    refine (entryAt_lock i).bind fun e e' he => ?_
    obtain ⟨rfl, he⟩ := he
    by_cases h3 : e.state ≠ s
    · rw [if_pos h3]; exact Lock.fail
    rw [if_neg h3]
    cases stale with
    | true => exact Lock.pure ⟨rfl, he⟩
    | false =>
      simp only [Bool.false_eq_true, if_false]
      refine (Lock.reads_eq fun m c' st h => rfl).seq fun c => ?_
      refine (Lock.modify fun m n hm => ?_).seq fun _ => Lock.pure ⟨rfl, he⟩
      cases hm with
      | mk h1 h2 h3 => exact .mk (m := { m with cache := _, counter := _ }) h1 h2 (even_set h3 he)

theorem ensureCacheAtState_lock : EnsureLock (A := A) full ensureCacheAtState ensureCacheAtState := by
  intro s m n hm
  unfold ensureCacheAtState
  have hf : n.fuel = m.fuel := by
    cases hm with
    | mk h1 h2 h3 => unfold Model.fuel; rw [h1.maxOrder]
  rw [hf]
  exact ensureCache_lock m.fuel s m n hm

theorem updateCacheAtState_lock (s : Int) : Lock (A := A) full Eq (updateCacheAtState s) (updateCacheAtState s) :=
  updateCacheAtStateWith_lock ensureCacheAtState_lock s

theorem lookup_lock {α : Type} (g : Data A.C → List α) (s y : Int) : Lock (A := A) full Eq
    (do let e ← ensureCacheAtState s; PM.reads fun _ => verified (g e.data) y)
    (do let e ← ensureCacheAtState s; PM.reads fun _ => verified (g e.data) y) :=
  (ensureCacheAtState_lock s).bind fun e e' he => by rw [he.1]; exact Lock.reads_eq fun _ _ _ _ => rfl

/-! ## Updates -/

theorem needsNewState_like {c c' : Core A.C} (h : CoreLike A true c c') (curr next : Int) :
    needsNewState c curr next = needsNewState c' curr next := by
  unfold needsNewState orderOf
  rw [h.orders rfl, h.maxOrder]

theorem addNewState_like {c c' : Core A.C} (h : CoreLike A true c c') (bo : Nat) :
    Agree (fun a b => CoreLike A true a.1 b.1 ∧ a.2 = b.2) (addNewState A c bo) (addNewState A c' bo) := by
  unfold addNewState
  simp only
  rw [h.fst.length, h.orders rfl]
  by_cases hn : c'.fst.states.length ≠ c'.orders.length
  · rw [if_pos hn, if_pos hn]; exact .fail
  rw [if_neg hn, if_neg hn]
  have : orderOf c (bo : Int) = orderOf c' (bo : Int) := by unfold orderOf; rw [h.orders rfl]
  rw [this]
  exact Agree.eq_bind fun ob => .ok ⟨⟨h.fst.push _, fun _ => rfl, h.maxOrder⟩, rfl⟩

theorem splitArc_parts {C : Type} {y : Int} : ∀ {l : List (Arc C)} {p a q}, splitArc y l = some (p, a, q) →
    l = p ++ a :: q
  | [], p, a, q, h => by simp [splitArc] at h
  | x :: l, p, a, q, h => by
    unfold splitArc at h
    by_cases hx : x.label = y
    · rw [if_pos hx] at h
      simp only [Option.some.injEq, Prod.mk.injEq] at h
      obtain ⟨rfl, rfl, rfl⟩ := h
      rfl
    · rw [if_neg hx] at h
      cases hs : splitArc y l with
      | none => rw [hs] at h; cases h
      | some r =>
        obtain ⟨p', a', q'⟩ := r
        rw [hs] at h
        simp only [Option.some.injEq, Prod.mk.injEq] at h
        obtain ⟨rfl, rfl, rfl⟩ := h
        rw [splitArc_parts hs]; rfl

theorem updateHighestFound_like {c c' : Core A.C} (h : CoreLike A true c c') (curr sym : Int) :
    Agree (CoreLike A true) (updateHighestFound A c curr sym) (updateHighestFound A c' curr sym) := by
  unfold updateHighestFound
  have := h.fst.state? curr
  generalize c.fst.state? curr = x at this ⊢
  generalize c'.fst.state? curr = y at this ⊢
  cases this with
  | none => exact .fault _
  | @some st st' hl =>
    simp only
    by_cases hy : sym = 0
    · rw [if_pos hy, if_pos hy]
      refine .ok ⟨h.fst.set curr ?_, h.orders, h.maxOrder⟩
      cases hl with
      | same e => rw [e]; exact .same rfl
      | node h1 h2 h3 h4 h5 => exact .node h1 (by simp only [h2]) h3 h4 h5
      | root h1 h2 h3 h4 => exact .root h1 (by simp only [h2]) h3 h4
    rw [if_neg hy, if_neg hy]
    have key : ∀ (p p' : List (Arc A.C)) (a : Arc A.C) (q q' : List (Arc A.C)), (∀ b : Arc A.C, b.label = a.label → StateLike A { st with arcs := p ++ b :: q }
        { st' with arcs := p' ++ b :: q' }) →
        Agree (CoreLike A true)
          (do
            let needs ← needsNewState c curr a.next
            let next := if needs then c.orders.length else a.next
            let a' : Arc A.C := { a with weight := A.nls a.weight A.one, next := next }
            let d := { c with fst := setState c.fst curr { st with arcs := p ++ a' :: q } }
            if needs then do
              let r ← addNewState A d a.next
              pure r.1
            else pure d)
          (do
            let needs ← needsNewState c' curr a.next
            let next := if needs then c'.orders.length else a.next
            let a' : Arc A.C := { a with weight := A.nls a.weight A.one, next := next }
            let d := { c' with fst := setState c'.fst curr { st' with arcs := p' ++ a' :: q' } }
            if needs then do
              let r ← addNewState A d a.next
              pure r.1
            else pure d) := by
      intro p p' a q q' hs
      rw [needsNewState_like h]
      refine Agree.eq_bind fun needs => ?_
      have hc : ∀ nx : Nat, CoreLike A true
          { c with fst := setState c.fst curr { st with arcs := p ++ ({ a with weight := A.nls a.weight A.one, next := nx } : Arc A.C) :: q } }
          { c' with fst := setState c'.fst curr { st' with arcs := p' ++ ({ a with weight := A.nls a.weight A.one, next := nx } : Arc A.C) :: q' } } :=
        fun nx => ⟨h.fst.set curr (hs _ rfl), h.orders, h.maxOrder⟩
      cases needs with
      | true =>
        simp only [if_true, h.orders rfl]
        have := hc c'.orders.length
        rw [h.orders rfl] at this
        exact (addNewState_like this _).bind fun a b hab => .ok hab.1
      | false => exact .ok (hc _)
    cases hl with
    | same e =>
      subst e
      match hs : splitArc sym st.arcs with
      | none => exact .fail
      | some (p, a, q) => exact key p p a q q fun b _ => .same rfl
    | @node e r r' h1 h2 h3 h4 h5 =>
      have hsp := splitArc_shuffle (y := sym) h5
      have he : e.label ≠ sym := fun hh => hy (hh ▸ h1)
      rw [h3, h4]
      simp only [splitArc, if_neg he]
      generalize splitArc sym r = s1 at hsp ⊢
      generalize splitArc sym r' = s2 at hsp ⊢
      cases hsp with
      | none => exact .fail
      | @some a p q p' q' hx =>
        exact key (e :: p) (e :: p') a q q' fun b hb => .node h1 h2 rfl rfl (hx b hb)
    | root h1 h2 h3 h4 =>
      have hsp := splitArc_shuffle (y := sym) h4
      have hparts : ∀ p a q, splitArc sym st.arcs = some (p, a, q) → st.arcs = p ++ a :: q := fun p a q h => splitArc_parts h
      match hs1 : splitArc sym st.arcs, hs2 : splitArc sym st'.arcs, hsp with
      | none, none, _ => exact .fail
      | some (p, a, q), some (p', a', q'), hsp =>
        have hst := hparts p a q hs1
        cases hsp with
        | some _ hx =>
          refine key p p' a q q' fun b hb => .root h1 h2 (fun x hx' => ?_) (hx b hb)
          simp only [List.mem_append, List.mem_cons] at hx'
          rcases hx' with hx' | rfl | hx'
          · exact h3 x (by rw [hst]; simp [hx'])
          · rw [hb]; exact h3 a (by rw [hst]; simp)
          · exact h3 x (by rw [hst]; simp [hx'])

theorem updateNotFound_like {c c' : Core A.C} (h : CoreLike A true c c') (curr dest sym : Int) :
    Agree (CoreLike A true) (updateNotFound A c curr dest sym) (updateNotFound A c' curr dest sym) := by
  unfold updateNotFound
  by_cases hy : sym = 0
  · rw [if_pos hy, if_pos hy]
    have := h.fst.state? curr
    generalize c.fst.state? curr = x at this ⊢
    generalize c'.fst.state? curr = y at this ⊢
    cases this with
    | none => exact .fault _
    | @some st st' hl =>
      refine .ok ⟨h.fst.set curr ?_, h.orders, h.maxOrder⟩
      cases hl with
      | same e => rw [e]; exact .same rfl
      | node h1 h2 h3 h4 h5 => exact .node h1 rfl h3 h4 h5
      | root h1 h2 h3 h4 => exact .root h1 rfl h3 h4
  rw [if_neg hy, if_neg hy, needsNewState_like h]
  refine Agree.eq_bind fun needs => ?_
  refine Agree.bind (R := fun a b => CoreLike A true a.1 b.1 ∧ a.2 = b.2) ?_ fun a b hab => ?_
  · unfold newDestination
    cases needs with
    | true => exact addNewState_like h _
    | false => exact .ok ⟨h, rfl⟩
  obtain ⟨c1, n1⟩ := a
  obtain ⟨c2, n2⟩ := b
  obtain ⟨k1, k2⟩ := hab
  simp only at k1 k2 ⊢
  subst k2
  have := k1.fst.state? curr
  generalize c1.fst.state? curr = x at this ⊢
  generalize c2.fst.state? curr = y at this ⊢
  cases this with
  | none => exact .fault _
  | @some st st' hl =>
    refine .ok ⟨k1.fst.set curr ?_, k1.orders, k1.maxOrder⟩
    cases hl with
    | same e => rw [e]; exact .same rfl
    | node h1 h2 h3 h4 h5 =>
      refine .node (e := _) (r := _ ++ _) (r' := _ ++ _) h1 h2 (by simp only [h3]; rfl) (by simp only [h4]; rfl) (h5.append_right _)
    | root h1 h2 h3 h4 =>
      refine .root h1 h2 (fun a ha => ?_) (h4.append_right _)
      rcases List.mem_append.mp ha with ha | ha
      · exact h3 a ha
      · simp only [List.mem_singleton] at ha; subst ha; exact hy

theorem setCore_lock {c c' : Core A.C} (h : CoreLike A full c c') :
    Lock full Eq (PM.modify fun m : Model A => m.setCore c) (PM.modify fun m => m.setCore c') := by
  refine Lock.modify fun m n hm => ?_
  cases hm with
  | @mk c'' st h1 h2 h3 =>
    have e : Model.setCore { m with core := c'', static := st } c' = { m.setCore c with core := c', static := st } := by
      unfold Model.setCore
      simp only [h.fst.length]
    rw [e]
    exact .mk (m := m.setCore c) h h2 h3

theorem core_lock {g : Core A.C → Res (Core A.C)} (h : ∀ c c', CoreLike A true c c' → Agree (CoreLike A true) (g c) (g c')) :
    Lock true Eq (PM.reads (fun m : Model A => g m.core) >>= fun c => PM.modify fun m => m.setCore c)
      (PM.reads (fun m : Model A => g m.core) >>= fun c => PM.modify fun m => m.setCore c) :=
  Lock.bind (R := CoreLike A true) (Lock.reads fun m n hm => by cases hm with | mk h1 h2 h3 => exact h _ _ h1)
    fun _ _ h => setCore_lock h

theorem updateCounts_lock {x y : PM A Int} (h : Lock true Eq x y) (curr highest sym : Int) :
    Lock true Eq (updateCounts x curr highest sym) (updateCounts y curr highest sym) := by
  unfold updateCounts
  by_cases he : highest = curr
  · rw [if_pos he, if_pos he]
    exact core_lock (g := fun c => updateHighestFound A c curr sym) fun c c' h => updateHighestFound_like h curr sym
  · rw [if_neg he, if_neg he]
    refine h.seq fun dest => ?_
    exact core_lock (g := fun c => updateNotFound A c curr dest sym) fun c c' h => updateNotFound_like h curr dest sym

theorem updateModel_lock : ∀ (k : Nat) (curr highest sym : Int),
    Lock (A := A) true Eq (updateModel k curr highest sym) (updateModel k curr highest sym)
  | 0, _, _, _ => fun _ _ _ => .error _
  | k + 1, curr, highest, sym => by
    unfold updateModel
    refine Lock.bind (R := fun a b => FstLike A a.1 b.1 ∧ a.2 = b.2) (Lock.reads fun m n hm => ?_) fun a b hab => ?_
    · cases hm with
      | mk h1 h2 h3 => exact incrementBackoffArc_like h1.fst curr
    obtain ⟨f, r⟩ := a
    obtain ⟨g, r'⟩ := b
    obtain ⟨k1, k2⟩ := hab
    simp only at k1 k2 ⊢
    subst k2
    refine Lock.seq (Lock.modify fun m n hm => ?_) fun _ => ?_
    · cases hm with
      | @mk c'' st h1 h2 h3 =>
        have e : Model.setCore { m with core := c'', static := st } { c'' with fst := g } =
            { m.setCore { m.core with fst := f } with core := { c'' with fst := g }, static := st } := by
          unfold Model.setCore
          simp only [k1.length]
        show ModelLike true _ (Model.setCore { m with core := c'', static := st } { c'' with fst := g })
        rw [e]
        exact .mk (m := m.setCore { m.core with fst := f }) ⟨k1, h1.orders, h1.maxOrder⟩ h2 h3
    refine (updateCounts_lock (updateModel_lock k r highest sym) curr highest sym).seq fun _ => ?_
    refine (updateCacheAtState_lock curr).seq fun _ => ?_
    exact lookup_lock Data.dest curr sym

theorem observe_lock (curr highest sym : Int) : Lock (A := A) true Eq (observe curr highest sym) (observe curr highest sym) := by
  intro m n hm
  unfold observe
  have hf : n.fuel = m.fuel := by
    cases hm with
    | mk h1 h2 h3 => unfold Model.fuel; rw [h1.maxOrder]
  rw [hf]
  exact updateModel_lock m.fuel curr highest sym m n hm

theorem static_lock : Lock (A := A) true Eq (PM.reads fun m => pure m.static) (PM.reads fun m => pure m.static) := by
  refine Lock.reads fun m n hm => ?_
  cases hm with
  | mk h1 h2 h3 => exact .ok (h2 rfl).symm

theorem whenM_lock {b : Bool} {x y : PM A Unit} (h : Lock full Eq x y) : Lock full Eq (whenM b x) (whenM b y) := by
  cases b with
  | true => exact h
  | false => exact Lock.pure rfl

theorem getNegLogProbsFrom_lock : ∀ (ys : List Int) (s : Int),
    Lock (A := A) true Eq (getNegLogProbsFrom s ys) (getNegLogProbsFrom s ys)
  | [], s => Lock.pure rfl
  | y :: ys, s => by
    unfold getNegLogProbsFrom
    refine (lookup_lock Data.costs s y).seq fun c => ?_
    refine static_lock.seq fun static => ?_
    refine (whenM_lock ?_).seq fun _ => ?_
    · refine (lookup_lock Data.origin s y).seq fun o => ?_
      exact (observe_lock s o y).seq fun _ => Lock.pure rfl
    refine (lookup_lock Data.dest s y).seq fun d => ?_
    exact (getNegLogProbsFrom_lock ys d).seq fun cs => Lock.pure rfl

/-- Results of the public functions. -/
inductive Outcome' {β : Type} (full : Bool) : Except Fault (β × Model A) → Except Fault (β × Model A) → Prop
  | error (e : Fault) : Outcome' full (.error e) (.error e)
  | ok {m n : Model A} (b : β) : ModelLike full m n → Outcome' full (.ok (b, m)) (.ok (b, n))

/-- A public function in lock step -/
def Lock' {β : Type} (full : Bool) (f g : Model A → Except Fault (β × Model A)) : Prop :=
  ∀ m n, ModelLike full m n → Outcome' full (f m) (g n)

theorem Lock'.toLock {β : Type} {f g : Model A → Except Fault (β × Model A)} (h : Lock' full f g) :
    Lock full Eq (PM.total f) (PM.total g) := by
  intro m n hm
  have := h m n hm
  unfold PM.total
  generalize f m = x at this ⊢
  generalize g n = y at this ⊢
  cases this with
  | error e => exact .error e
  | ok b h => exact .ok rfl h

theorem orElse_lock {α β : Type} {x y : PM A α} {k : α → β} {n1 : Model A → Except Fault β} (h : Lock full Eq x y)
    (hn : ∀ m n, ModelLike full m n → n1 m = n1 n) : Lock' full (orElse x k n1) (orElse y k n1) := by
  intro m n hm
  have := h m n hm
  unfold orElse
  generalize x m = r1 at this ⊢
  generalize y n = r2 at this ⊢
  cases this with
  | error e => exact .error e
  | ok hr h => subst hr; exact .ok _ h
  | @fail m' n' h =>
    simp only
    rw [← hn m' n' h]
    cases n1 m' with
    | error e => exact .error e
    | ok b => exact .ok b h

theorem unigramState_like (m n : Model A) (h : ModelLike full m n) : unigramState m = unigramState n := by
  cases h with
  | mk h1 h2 h3 =>
    unfold unigramState
    rw [getBackoffState_like h1.fst, h1.fst.start]

theorem nextState_lock (encode : Int → Str) (s sym : Int) :
    Lock' (A := A) full (nextState encode s sym) (nextState encode s sym) := by
  intro m n hm
  unfold nextState
  have e : n.symbols = m.symbols := by cases hm with | mk => rfl
  rw [e]
  simp only
  by_cases h : m.symbols.findLabel (encode sym) > 0
  · rw [if_pos h, if_pos h]
    exact orElse_lock (lookup_lock Data.dest s _) unigramState_like m n hm
  · rw [if_neg h, if_neg h]
    exact orElse_lock Lock.fail unigramState_like m n hm

theorem extractLMScores_lock (s : Int) : Lock' (A := A) full (extractLMScores s) (extractLMScores s) := by
  intro m n hm
  refine orElse_lock (x := (do
    let e ← ensureCacheAtState s
    PM.reads fun m => fillLMScores m.symbols e.data)) ?_ (fun _ _ _ => rfl) m n hm
  exact (ensureCacheAtState_lock s).bind fun e e' he => by rw [he.1]; exact Lock.reads_eq fun _ _ _ _ => rfl

theorem symLMScore_lock (encode : Int → Str) (s sym : Int) :
    Lock' (A := A) full (symLMScore encode s sym) (symLMScore encode s sym) := by
  intro m n hm
  unfold symLMScore
  have e : n.symbols = m.symbols := by cases hm with | mk => rfl
  rw [e]
  simp only
  generalize (if sym = 0 then (0 : Int) else m.symbols.findLabel (encode sym)) = idx
  by_cases h : idx ≥ 0
  · rw [if_pos h, if_pos h]
    exact orElse_lock (lookup_lock Data.costs s _) (fun _ _ _ => rfl) m n hm
  · rw [if_neg h, if_neg h]
    exact .ok _ hm

theorem observeAgain_lock (s sym : Int) : ∀ k, Lock (A := A) true Eq (observeAgain s sym k) (observeAgain s sym k)
  | 0 => Lock.pure rfl
  | k + 1 => by
    unfold observeAgain
    exact (observe_lock s s sym).seq fun _ => observeAgain_lock s sym k

theorem updateSymbol_lock (encode : Int → Str) (count s sym : Int) :
    Lock (A := A) true Eq (updateSymbol encode count s sym) (updateSymbol encode count s sym) := by
  unfold updateSymbol
  refine (Lock.reads_eq fun _ _ _ _ => rfl).seq fun idx => ?_
  by_cases h : idx < 0
  · rw [if_pos h]
    refine Lock.reads_eq fun m c' st h => ?_
    show (Pure.pure (c'.fst.start : Int) : Res Int) = _
    rw [h.fst.start]
  rw [if_neg h]
  refine (lookup_lock Data.origin s idx).seq fun o => ?_
  refine (observe_lock s o idx).seq fun _ => ?_
  refine (observeAgain_lock s idx _).seq fun _ => ?_
  exact (nextState_lock encode s sym).toLock

theorem updateSymbols_lock (encode : Int → Str) (count : Int) : ∀ (ys : List Int) (s : Int),
    Lock (A := A) true Eq (updateSymbols encode count s ys) (updateSymbols encode count s ys)
  | [], s => Lock.pure rfl
  | y :: ys, s => by
    unfold updateSymbols
    exact (updateSymbol_lock encode count s y).seq fun t => updateSymbols_lock encode count ys t

theorem updateLMCounts_lock (encode : Int → Str) (s : Int) (ys : List Int) (count : Int) :
    Lock' (A := A) true (updateLMCounts encode s ys count) (updateLMCounts encode s ys count) := by
  intro m n hm
  unfold updateLMCounts
  have e : n.static = m.static := by cases hm with | mk h1 h2 h3 => exact h2 rfl
  rw [e]
  by_cases h : (m.static || decide (count ≤ 0)) = true
  · rw [if_pos h, if_pos h]; exact .ok _ hm
  · rw [if_neg h, if_neg h]
    exact orElse_lock (updateSymbols_lock encode count ys s) (fun _ _ _ => rfl) m n hm

theorem wrap_lock {β γ : Type} (k : β → γ) {f g : Model A → Except Fault (β × Model A)} (h : Lock' full f g) :
    Lock' full (wrap k f) (wrap k g) := by
  intro m n hm
  have := h m n hm
  unfold wrap
  generalize f m = x at this ⊢
  generalize g n = y at this ⊢
  cases this with
  | error e => exact .error e
  | ok b h => exact .ok _ h

/-- calls that only ask -/
def Op.asks : Op → Bool
  | .next _ _ => true
  | .scores _ => true
  | .score _ _ => true
  | .update _ _ _ => false
  | .logProbs _ => false

theorem step_lock (encode : Int → Str) (op : Op) (hf : full = true ∨ op.asks = true) :
    Lock' (A := A) full (step encode op) (step encode op) := by
  cases op with
  | next s sym => exact wrap_lock _ (nextState_lock encode s sym)
  | scores s => exact wrap_lock _ (extractLMScores_lock s)
  | score s sym => exact wrap_lock _ (symLMScore_lock encode s sym)
  | update s ys count =>
    rcases hf with rfl | hf
    · exact wrap_lock _ (updateLMCounts_lock encode s ys count)
    · cases hf
  | logProbs ys =>
    rcases hf with rfl | hf
    · refine wrap_lock _ ?_
      intro m n hm
      have h := getNegLogProbsFrom_lock (A := A) ys m.core.fst.start m n hm
      have hst : n.core.fst.start = m.core.fst.start := by cases hm with | mk h1 h2 h3 => exact h1.fst.start.symm
      unfold getNegLogProbs
      rw [hst]
      generalize getNegLogProbsFrom (m.core.fst.start : Int) ys m = x at h ⊢
      generalize getNegLogProbsFrom (m.core.fst.start : Int) ys n = y at h ⊢
      cases h with
      | error e => exact .error e
      | fail h => exact .ok none h
      | ok hr h => subst hr; exact .ok _ h
    · cases hf

end Mozolm.Ppm
