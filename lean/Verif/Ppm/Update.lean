import Verif.Ppm.Cache

/-! # What the updates do to the automaton of counts -/

namespace Mozolm.Ppm
variable {A : Arith} {Ok : A.C → Prop}

/-- `state_orders_` holds the orders -/
structure OrdersOk (c : Core A.C) (ord : Nat → Nat) : Prop where
  len : c.orders.length = c.fst.states.length
  get : ∀ s, s < c.fst.states.length → c.orders[s]? = some (ord s : Int)

theorem OrdersOk.orderOf {c : Core A.C} {ord : Nat → Nat} (h : OrdersOk c ord) {s : Nat}
    (hs : s < c.fst.states.length) : orderOf c (s : Int) = pure (ord s : Int) := by
  unfold Ppm.orderOf
  rw [if_neg (by omega), toNat_coe, h.get s hs]; rfl

theorem StateOk.mono {n n' : Nat} {ord ord' : Nat → Nat} {mo : Int} {V u s : Nat} {st : FState A.C}
    (h : StateOk A Ok n ord mo V u s st) (hn : n ≤ n') (hs : s < n) (ho : ∀ x, x < n → ord' x = ord x) :
    StateOk A Ok n' ord' mo V u s st := by
  refine ⟨?_, h.nodup, by rw [ho s hs]; exact h.ord_lt, h.unigram, ?_⟩
  · intro a ha hl
    obtain ⟨h1, h2, h3, h4⟩ := h.arcs a ha hl
    exact ⟨h1, by omega, by rw [ho _ h2, ho s hs]; exact h3, h4⟩
  · intro hu
    obtain ⟨h1, w, b, rest, h2, h3, h4⟩ := h.node hu
    exact ⟨h1, w, b, rest, h2, by omega, by rw [ho _ h3, ho s hs]; exact h4⟩

/-- Replacing a state by a well-formed one with the same backoff. -/
theorem WF.setState {f : Fst A.C} {ord : Nat → Nat} {mo : Int} {V u s : Nat} {st : FState A.C}
    (h : WF A Ok f ord mo V u) (hst : StateOk A Ok f.states.length ord mo V u s st)
    (hs : s < f.states.length)
    (hb : backoff { f with states := f.states.set s st } s = backoff f s) :
    WF A Ok { f with states := f.states.set s st } ord mo V u ∧
      ∀ x, backoff { f with states := f.states.set s st } x = backoff f x := by
  have hback : ∀ x, backoff { f with states := f.states.set s st } x = backoff f x := by
    intro x
    by_cases hx : s = x
    · subst hx; exact hb
    · apply backoff_congr; simp only; rw [List.getElem?_set_ne hx]
  refine ⟨⟨?_, by simpa using h.u_lt, h.ord_u, ?_, h.V_pos⟩, hback⟩
  · intro x stx hx
    simp only [List.length_set]
    by_cases hxs : s = x
    · subst hxs
      simp only at hx
      rw [List.getElem?_set_self hs] at hx
      injection hx with hx; subst hx; exact hst
    · simp only at hx
      rw [List.getElem?_set_ne hxs] at hx
      exact h.states x stx hx
  · rw [hback]; exact h.start

/-- the automaton with a new context backing off to `b` -/
def withState (f : Fst A.C) (b : Nat) : Fst A.C :=
  { f with states := f.states ++ [⟨A.inf, [⟨0, A.one, b⟩]⟩] }

/-- the orders with that of a new context -/
def withOrder (ord : Nat → Nat) (n k : Nat) : Nat → Nat := fun x => if x = n then k else ord x

theorem withState_get {f : Fst A.C} {b x : Nat} (hx : x < f.states.length) :
    (withState f b).states[x]? = f.states[x]? := by
  simp only [withState]; rw [List.getElem?_append_left hx]

theorem withState_new (f : Fst A.C) (b : Nat) :
    (withState f b).states[f.states.length]? = some ⟨A.inf, [⟨0, A.one, b⟩]⟩ := by
  simp only [withState]; exact List.getElem?_concat_length

theorem WF.withState {f : Fst A.C} {ord : Nat → Nat} {mo : Int} {V u b : Nat} (hz : A.isInf A.inf = true)
    (h : WF A Ok f ord mo V u) (hb : b < f.states.length) (ho : (ord b : Int) + 1 < mo) :
    WF A Ok (withState f b) (withOrder ord f.states.length (ord b + 1)) mo V u := by
  have hlen : (Ppm.withState f b).states.length = f.states.length + 1 := by simp [Ppm.withState]
  have hord : ∀ x, x < f.states.length → withOrder ord f.states.length (ord b + 1) x = ord x := by
    intro x hx; unfold withOrder; rw [if_neg (by omega)]
  refine ⟨?_, by have := h.u_lt; omega, by rw [hord _ h.u_lt]; exact h.ord_u, ?_, h.V_pos⟩
  · intro x st hx
    rw [hlen]
    by_cases hxl : x < f.states.length
    · rw [withState_get hxl] at hx
      exact (h.states x st hx).mono (by omega) hxl hord
    · have hxe : x = f.states.length := by
        have := lt_of_getElem?_eq_some hx; omega
      subst hxe
      rw [withState_new] at hx
      injection hx with hx
      subst hx
      refine ⟨?_, by simp, ?_, ?_, ?_⟩
      · intro a ha hl; simp at ha; subst ha; simp at hl
      · unfold withOrder; rw [if_pos rfl]; omega
      · intro e; have := h.u_lt; omega
      · intro _
        refine ⟨.inl hz, A.one, b, [], rfl, by omega, ?_⟩
        rw [hord b hb]; unfold withOrder; rw [if_pos rfl]
  · have := backoff_congr (f := f) (withState_get (b := b) h.start_lt)
    exact this.trans h.start

/-- One change at context `s`: other contexts keep everything, `s` keeps its backoff, new contexts are
empty. -/
structure Changed (A : Arith) (c c' : Core A.C) (ord ord' : Nat → Nat) (s : Nat) : Prop where
  maxOrder : c'.maxOrder = c.maxOrder
  start : c'.fst.start = c.fst.start
  len : c.fst.states.length ≤ c'.fst.states.length
  others : ∀ x, x < c.fst.states.length → x ≠ s → c'.fst.states[x]? = c.fst.states[x]?
  sameBackoff : ∀ x, x < c.fst.states.length → backoff c'.fst x = backoff c.fst x
  sameOrd : ∀ x, x < c.fst.states.length → ord' x = ord x
  orders : OrdersOk c ord → OrdersOk c' ord'
  fresh : ∀ x, c.fst.states.length ≤ x → x < c'.fst.states.length →
    Unseen A c'.fst x ∧ storedTotal c'.fst x = some A.one

theorem Changed.below {c c' : Core A.C} {ord ord' : Nat → Nat} {mo : Int} {V u s : Nat}
    (h : Changed A c c' ord ord' s) (wf : WF A Ok c.fst ord mo V u) {x t : Nat} (ht : t < c.fst.states.length) :
    Below c'.fst x t ↔ Below c.fst x t := by
  constructor
  · intro hb
    induction hb with
    | step e => rw [h.sameBackoff _ ht] at e; exact .step e
    | trans e _ ih =>
      rw [h.sameBackoff _ ht] at e
      exact .trans e (ih (wf.of_backoff e).2.2.1)
  · intro hb
    induction hb with
    | step e => rw [← h.sameBackoff _ ht] at e; exact .step e
    | trans e _ ih =>
      have := (wf.of_backoff e).2.2.1
      rw [← h.sameBackoff _ ht] at e
      exact .trans e (ih this)

/-- The cache after a change at `s`: only the entries of contexts extending `s` may be out of date. -/
theorem CacheOk.setCore {m : Model A} {D : Nat → Prop} (h : CacheOk m D) {c' : Core A.C}
    {ord ord' : Nat → Nat} {mo : Int} {V u s : Nat} (wf : WF A Ok m.core.fst ord mo V u)
    (hc : Changed A m.core c' ord ord' s) : CacheOk (m.setCore c') (fun x => D x ∨ x = s) := by
  have hlt : ∀ e ∈ m.cache, e.state.toNat < m.core.fst.states.length := by
    intro e he
    obtain ⟨i, hi⟩ := List.getElem?_of_mem he
    obtain ⟨t, ht, ht'⟩ := h.entry i e hi
    have := lt_of_getElem?_eq_some ht'
    rw [h.len] at this
    rw [ht, toNat_coe]; exact this
  have hlen := h.len
  have hle := hc.len
  have hidx : ∀ x, x < m.core.fst.states.length →
      (m.setCore c').index[x]? = m.index[x]? := by
    intro x hx
    simp only [Model.setCore]
    rw [List.getElem?_append_left (by omega)]
  refine ⟨⟨?_, ?_, ?_, h.size, h.max⟩, h.times, ?_, ?_⟩
  · simp only [Model.setCore, List.length_append, List.length_replicate]; omega
  · intro i e he
    obtain ⟨t, ht, ht'⟩ := h.entry i e he
    refine ⟨t, ht, ?_⟩
    rw [hidx t (by have := lt_of_getElem?_eq_some ht'; omega)]; exact ht'
  · intro t i ht
    by_cases htl : t < m.core.fst.states.length
    · rw [hidx t htl] at ht
      exact h.idx t i ht
    · left
      simp only [Model.setCore] at ht
      rw [List.getElem?_append_right (by omega)] at ht
      have hr := List.mem_of_getElem? ht
      simp only [List.mem_replicate] at hr
      exact hr.2
  · intro e he e' he' hb hlt'
    have : Below m.core.fst e'.state.toNat e.state.toNat := (hc.below wf (hlt e he)).mp hb
    exact h.recent e he e' he' this hlt'
  · intro e he
    have he' := hlt e he
    by_cases hs : s = e.state.toNat ∨ Below m.core.fst s e.state.toNat
    · right; right
      refine ⟨s, .inr rfl, ?_⟩
      rcases hs with hs | hs
      · exact .inl hs
      · exact .inr ((hc.below wf he').mpr hs)
    · rcases h.valid e he with v | ⟨e', v1, v2, v3⟩ | ⟨x, v1, v2⟩
      · left
        refine v.congr hc.start ?_
        intro x hx
        refine hc.others x ?_ ?_
        · rcases hx with rfl | hx
          · exact he'
          · exact (hx.ord_lt wf).2
        · rintro rfl
          rcases hx with rfl | hx
          · exact hs (.inl rfl)
          · exact hs (.inr hx)
      · exact .inr (.inl ⟨e', v1, (hc.below wf he').mpr v2, v3⟩)
      · refine .inr (.inr ⟨x, .inl v1, ?_⟩)
        rcases v2 with v2 | v2
        · exact .inl v2
        · exact .inr ((hc.below wf he').mpr v2)

/-! ## Incrementing the backoff arc -/

theorem incrementBackoffArc_spec {f : Fst A.C} {ord : Nat → Nat} {mo : Int} {V u s : Nat}
    (wf : WF A Ok f ord mo V u) (hs : s < f.states.length) :
    ∃ f1, incrementBackoffArc A f (s : Int) = pure (f1, idOf (backoff f s)) ∧ WF A Ok f1 ord mo V u ∧
      f1.states.length = f.states.length ∧ f1.start = f.start ∧
      (∀ x, x ≠ s → f1.states[x]? = f.states[x]?) ∧
      (∀ x, backoff f1 x = backoff f x) ∧
      (∀ x y, count A f1 x y = count A f x y) ∧
      (∀ x y, target f1 x y = target f x y) ∧
      (Unseen A f s → storedTotal f1 s = storedTotal f s) ∧
      (¬ Unseen A f s → storedTotal f1 s = (storedTotal f s).map fun w => A.nls w A.one) := by
  obtain ⟨st, hst, ok⟩ := wf.exists_state hs
  have hne := ok.arcs_ne_nil wf.V_pos
  cases ha : st.arcs with
  | nil => exact absurd ha hne
  | cons a rest =>
    unfold incrementBackoffArc
    rw [noObservations_eq (A := A) hst ha]
    simp only [Res.pure_bind]
    rw [state?_nat, hst]
    simp only [ha]
    by_cases hl : a.label = 0
    · rw [if_pos hl]
      have hb : backoff f s = some a.next := by simp [backoff, hst, ha, hl]
      have hu : s ≠ u := (wf.of_backoff hb).2.1
      have hst0 : storedTotal f s = some a.weight := by simp [storedTotal, hst, ha, hl]
      have hrest : ∀ x ∈ rest, x.label ≠ 0 := by
        have := ok.nodup
        rw [ha] at this
        simp only [List.map_cons, List.nodup_cons, List.mem_map, not_exists, not_and] at this
        intro x hx e
        exact this.1 x hx (by rw [e, hl])
      by_cases hno : (A.isInf st.final && (rest.length == 0) && (a.label == 0)) = true
      · rw [if_pos hno]
        have hun : Unseen A f s := by
          simp only [Bool.and_eq_true, beq_iff_eq] at hno
          intro y
          simp only [count, hst, Option.bind_some, stateCount]
          by_cases hy : y = 0
          · rw [if_pos hy, if_pos hno.1.1]
          · rw [if_neg hy, ha, List.length_eq_zero_iff.mp hno.1.2]
            have : (a.label == y) = false := by rw [beq_eq_false_iff_ne]; omega
            simp [this]
        refine ⟨f, by rw [hb]; rfl, wf, rfl, rfl, fun _ _ => rfl, fun _ => rfl, fun _ _ => rfl, fun _ _ => rfl,
          fun _ => rfl, fun h => absurd hun h⟩
      · rw [if_neg hno]
        have hseen : ¬ Unseen A f s := by
          intro hun
          apply hno
          have h0 := hun 0
          simp only [count, hst, Option.bind_some, stateCount, if_pos] at h0
          have hinf : A.isInf st.final = true := by
            cases hi : A.isInf st.final with
            | true => rfl
            | false => rw [hi] at h0; simp at h0
          have hr : rest = [] := by
            cases hr : rest with
            | nil => rfl
            | cons x xs =>
              have hx := hun x.label
              have hxl : x.label ≠ 0 := hrest x (by simp [hr])
              simp only [count, hst, Option.bind_some, stateCount, if_neg hxl, ha, hr] at hx
              simp only [Option.map_eq_none_iff, List.find?_eq_none, beq_iff_eq] at hx
              exact absurd rfl (hx x (by simp))
          simp [hinf, hr, hl]
        have hget : ∀ x, x ≠ s → (f.states.set s { st with arcs :=
            { a with weight := A.nls a.weight A.one } :: rest })[x]? = f.states[x]? := by
          intro x hx; rw [List.getElem?_set_ne (fun e => hx e.symm)]
        have hself : (f.states.set s { st with arcs :=
            { a with weight := A.nls a.weight A.one } :: rest })[s]? = some { st with arcs :=
            { a with weight := A.nls a.weight A.one } :: rest } := List.getElem?_set_self hs
        have hok' : StateOk A Ok f.states.length ord mo V u s
            { st with arcs := { a with weight := A.nls a.weight A.one } :: rest } := by
          refine ⟨?_, ?_, ok.ord_lt, fun e => absurd e hu, ?_⟩
          · intro x hx hxl
            simp only [List.mem_cons] at hx
            rcases hx with rfl | hx
            · exact absurd hl hxl
            · exact ok.arcs x (by simp [ha, hx]) hxl
          · have := ok.nodup; rw [ha] at this; exact this
          · intro _
            obtain ⟨h1, w, b, rest', h2, h3, h4⟩ := ok.node hu
            refine ⟨h1, A.nls w A.one, b, rest', ?_, h3, h4⟩
            rw [ha] at h2
            injection h2 with h2 h2'
            subst h2 h2'
            rfl
        have hwf := wf.setState hok' hs (by
          rw [hb]; simp only [backoff]; rw [hself]; simp [hl])
        refine ⟨_, by rw [hb, setState_nat]; rfl, hwf.1, by simp, rfl, hget, hwf.2, ?_, ?_,
          fun h => absurd h hseen, ?_⟩
        · intro x y
          by_cases hx : x = s
          · subst hx
            simp only [count]
            rw [hself, hst]
            simp only [Option.bind_some, stateCount]
            by_cases hy : y = 0
            · rw [if_pos hy, if_pos hy]
            · rw [if_neg hy, if_neg hy, ha]
              have : (a.label == y) = false := by rw [beq_eq_false_iff_ne]; omega
              simp [this]
          · simp only [count]; rw [hget x hx]
        · intro x y
          by_cases hx : x = s
          · subst hx
            simp only [target]
            rw [hself, hst]
            by_cases hy : y = 0
            · rw [if_pos hy, if_pos hy]
            · rw [if_neg hy, if_neg hy]
              have : (a.label == y) = false := by rw [beq_eq_false_iff_ne]; omega
              simp [ha, this]
          · simp only [target]; rw [hget x hx]
        · intro _
          rw [hst0]
          simp only [storedTotal]
          rw [hself]
          simp [hl]
    · rw [if_neg hl]
      have hb : backoff f s = none := by simp [backoff, hst, ha, hl]
      have hst0 : storedTotal f s = none := by simp [storedTotal, hst, ha, hl]
      refine ⟨f, by rw [hb]; rfl, wf, rfl, rfl, fun _ _ => rfl, fun _ => rfl, fun _ _ => rfl, fun _ _ => rfl,
        fun _ => rfl, fun _ => by rw [hst0]; rfl⟩

/-! ## Adding to a count -/

theorem splitArc_spec {C : Type} {y : Int} : ∀ {arcs : List (Arc C)} {a : Arc C},
    arcs.find? (fun a => a.label == y) = some a →
    ∃ pre post, splitArc y arcs = some (pre, a, post) ∧ arcs = pre ++ a :: post ∧ a.label = y ∧
      ∀ x ∈ pre, x.label ≠ y := by
  intro arcs
  induction arcs with
  | nil => intro a h; simp at h
  | cons b bs ih =>
    intro a h
    unfold splitArc
    by_cases hb : b.label = y
    · simp only [List.find?_cons, hb, beq_self_eq_true, Option.some.injEq] at h
      subst h
      rw [if_pos hb]
      exact ⟨[], bs, rfl, rfl, hb, by simp⟩
    · have : (b.label == y) = false := by simp [hb]
      simp only [List.find?_cons, this] at h
      obtain ⟨pre, post, h1, h2, h3, h4⟩ := ih h
      rw [if_neg hb, h1]
      refine ⟨b :: pre, post, rfl, by rw [h2]; rfl, h3, ?_⟩
      intro x hx
      simp only [List.mem_cons] at hx
      rcases hx with rfl | hx
      · exact hb
      · exact h4 x hx

theorem needsNewState_spec {c : Core A.C} {ord : Nat → Nat} (ho : OrdersOk c ord) {s t : Nat}
    (hs : s < c.fst.states.length) (ht : t < c.fst.states.length) (h : ord t = ord s ∨ ord t = ord s + 1) :
    needsNewState c (s : Int) (t : Int) =
      pure (decide (ord t = ord s ∧ (ord s : Int) + 1 < c.maxOrder)) := by
  unfold needsNewState
  rw [ho.orderOf ht, ho.orderOf hs]
  simp only [Res.pure_bind]
  rcases h with h | h
  · rw [if_neg (by omega), if_neg (by omega)]
    by_cases hm : (ord t : Int) + 1 ≥ c.maxOrder
    · rw [if_pos hm]
      congr 1; rw [eq_comm, decide_eq_false_iff_not]; omega
    · rw [if_neg hm]
      congr 1; rw [eq_comm, decide_eq_true_eq]; omega
  · rw [if_pos (by omega)]
    congr 1; rw [eq_comm, decide_eq_false_iff_not]; omega

theorem addNewState_spec {c : Core A.C} {ord : Nat → Nat} (ho : OrdersOk c ord) {b : Nat}
    (hb : b < c.fst.states.length) :
    addNewState A c b = pure ({ c with
      fst := withState c.fst b
      orders := c.orders ++ [(ord b : Int) + 1] }, c.fst.states.length) := by
  unfold addNewState
  have := ho.len
  simp only
  rw [if_neg (by omega), ho.orderOf hb]
  rfl

theorem OrdersOk.withState {c : Core A.C} {ord : Nat → Nat} (ho : OrdersOk c ord) (b : Nat) (k : Nat) :
    OrdersOk { c with
      fst := Ppm.withState c.fst b
      orders := c.orders ++ [(k : Int)] } (withOrder ord c.fst.states.length k) := by
  have hl := ho.len
  refine ⟨by simp [Ppm.withState, hl], ?_⟩
  intro s hs
  simp only [Ppm.withState, List.length_append, List.length_singleton] at hs
  simp only [withOrder]
  by_cases h : s = c.fst.states.length
  · subst h
    rw [if_pos rfl, ← hl]
    exact List.getElem?_concat_length
  · rw [if_neg h, List.getElem?_append_left (by omega)]
    exact ho.get s (by omega)

theorem OrdersOk.setFst {c : Core A.C} {ord : Nat → Nat} (ho : OrdersOk c ord) {f : Fst A.C}
    (hl : f.states.length = c.fst.states.length) : OrdersOk { c with fst := f } ord :=
  ⟨by simp [ho.len, hl], fun s hs => ho.get s (by simpa [hl] using hs)⟩

/-- counts and targets of a state -/
theorem count_set_self {f : Fst A.C} {s : Nat} {st : FState A.C} (hs : s < f.states.length) (y : Int) :
    count A { f with states := f.states.set s st } s y = stateCount A st y := by
  simp only [count]; rw [List.getElem?_set_self hs]; rfl

theorem count_of {f : Fst A.C} {s : Nat} {st : FState A.C} (hst : f.states[s]? = some st) (y : Int) :
    count A f s y = stateCount A st y := by
  simp only [count]; rw [hst]; rfl

theorem find?_mid_self {C : Type} {pre post : List (Arc C)} {a : Arc C} {y : Int}
    (hpre : ∀ x ∈ pre, x.label ≠ y) (ha : a.label = y) :
    (pre ++ a :: post).find? (fun a => a.label == y) = some a := by
  rw [List.find?_append, find?_none_of_forall hpre]
  simp [ha]

theorem find?_mid_other {C : Type} {pre post : List (Arc C)} {a a' : Arc C} {z : Int}
    (ha : a.label ≠ z) (ha' : a'.label ≠ z) :
    (pre ++ a' :: post).find? (fun a => a.label == z) = (pre ++ a :: post).find? (fun a => a.label == z) := by
  have h1 : (a.label == z) = false := by simp [ha]
  have h2 : (a'.label == z) = false := by simp [ha']
  rw [List.find?_append, List.find?_append]
  simp [h1, h2]

/-- What adding one to the count of `y` at `s` does. -/
structure Added (A : Arith) (Ok : A.C → Prop) (c c' : Core A.C) (ord ord' : Nat → Nat) (V u s : Nat)
    (y : Int) (w : A.C) : Prop extends Changed A c c' ord ord' s where
  wf : WF A Ok c'.fst ord' c'.maxOrder V u
  count_self : count A c'.fst s y = some w
  count_other : ∀ z, z ≠ y → count A c'.fst s z = count A c.fst s z
  target_other : ∀ z, z ≠ y → target c'.fst s z = target c.fst s z
  total : storedTotal c'.fst s = storedTotal c.fst s
  next : y ≠ 0 → ∃ t, target c'.fst s y = some t ∧ t < c'.fst.states.length ∧
    (ord' t = ord s ∨ ord' t = ord s + 1) ∧ ((ord s : Int) + 1 < c.maxOrder → ord' t = ord s + 1)
  /-- a new context backs off to the old target -/
  deepened : ∀ x, c.fst.states.length ≤ x → x < c'.fst.states.length →
    x = c.fst.states.length ∧ target c'.fst s y = some x

/-- Where the arc of `y` at `s` leads after the count was added, if it led to `d`, or would lead there for lack of
a longer context: to a new context that backs off to `d`, if there is room for one and `d` is not it. -/
structure Dest {C : Type} (c c' : Core C) (ord ord' : Nat → Nat) (s : Nat) (y : Int) (d : Nat) : Prop where
  new : ord d = ord s ∧ (ord s : Int) + 1 < c.maxOrder → target c'.fst s y = some c.fst.states.length ∧
    c'.fst.states.length = c.fst.states.length + 1 ∧ backoff c'.fst c.fst.states.length = some d ∧
    ord' c.fst.states.length = ord s + 1
  old : ¬ (ord d = ord s ∧ (ord s : Int) + 1 < c.maxOrder) → target c'.fst s y = some d ∧
    c'.fst.states.length = c.fst.states.length

/-- changing the end-of-string count -/
theorem setFinal_added {c : Core A.C} {ord : Nat → Nat} {V u s : Nat} {w : A.C}
    (hwok : Ok w) (hfin : A.isInf w = false) (wf : WF A Ok c.fst ord c.maxOrder V u) {st : FState A.C}
    (hst : c.fst.states[s]? = some st) :
    Added A Ok c { c with fst := setState c.fst (s : Int) { st with final := w } } ord ord V u s 0 w := by
  have ok := wf.states s st hst
  have hs := lt_of_getElem?_eq_some hst
  have hself : (c.fst.states.set s { st with final := w })[s]? = some { st with final := w } :=
    List.getElem?_set_self hs
  have hok' : StateOk A Ok c.fst.states.length ord c.maxOrder V u s { st with final := w } :=
    ⟨ok.arcs, ok.nodup, ok.ord_lt, fun e => ⟨hwok, (ok.unigram e).2⟩, fun e => ⟨.inr hwok, (ok.node e).2⟩⟩
  have hwf := wf.setState hok' hs (by
    simp only [backoff]; rw [hself, hst])
  rw [setState_nat]
  refine ⟨⟨rfl, rfl, by simp, ?_, fun x _ => hwf.2 x, fun _ _ => rfl, fun ho => ho.setFst (by simp), ?_⟩,
    hwf.1, ?_, ?_, ?_, ?_, fun h => absurd rfl h, ?_⟩
  · intro x _ hx; simp only; rw [List.getElem?_set_ne (fun e => hx e.symm)]
  · intro x h1 h2; simp at h2; omega
  · rw [count_set_self hs]; simp [stateCount, hfin]
  · intro z hz
    rw [count_set_self hs, count_of hst]; simp [stateCount, hz]
  · intro z hz
    simp only [target]; rw [hself, hst]; simp [hz]
  · simp only [storedTotal]; rw [hself, hst]; rfl
  · intro x h1 h2; simp at h2; omega

/-- a state with the arc `a` counted once more and leading to `t` -/
abbrev bumped (A : Arith) (st : FState A.C) (pre post : List (Arc A.C)) (a : Arc A.C) (t : Nat) : FState A.C :=
  { st with arcs := pre ++ { a with weight := A.nls a.weight A.one, next := t } :: post }

/-- `UpdateHighestFoundState` adds one to the count of a symbol that has one. -/
theorem updateHighestFound_spec {c : Core A.C} {beta : A.D} (L : CountLaws A Ok beta) {ord : Nat → Nat}
    {V u s : Nat} (wf : WF A Ok c.fst ord c.maxOrder V u) (ho : OrdersOk c ord)
    (hs : s < c.fst.states.length) {y : Int} {w : A.C} (hc : count A c.fst s y = some w) :
    ∃ c' ord', updateHighestFound A c (s : Int) y = pure c' ∧
      Added A Ok c c' ord ord' V u s y (A.nls w A.one) ∧
      (y = 0 → c'.fst.states.length = c.fst.states.length) ∧
      (y ≠ 0 → ∀ d, target c.fst s y = some d → Dest c c' ord ord' s y d) := by
  obtain ⟨st, hst, ok⟩ := wf.exists_state hs
  have hcw : stateCount A st y = some w := by rw [← count_of hst]; exact hc
  unfold updateHighestFound
  rw [state?_nat, hst]
  simp only
  by_cases hy : y = 0
  · subst hy
    rw [if_pos rfl]
    have hi : A.isInf st.final = false ∧ st.final = w := by
      simp only [stateCount, if_true] at hcw
      cases hi : A.isInf st.final with
      | true => rw [hi] at hcw; simp at hcw
      | false => rw [hi] at hcw; simp at hcw; exact ⟨rfl, hcw⟩
    have hokf : Ok w := by
      by_cases hu : s = u
      · rw [← hi.2]; exact (ok.unigram hu).1
      · rcases (ok.node hu).1 with h | h
        · rw [hi.1] at h; cases h
        · rw [← hi.2]; exact h
    rw [hi.2]
    exact ⟨_, ord, rfl, setFinal_added (L.succ w hokf) (L.finite _ (L.succ w hokf)) wf hst,
      fun _ => by simp [setState], fun h => absurd rfl h⟩
  · rw [if_neg hy]
    simp only [stateCount, if_neg hy, Option.map_eq_some_iff] at hcw
    obtain ⟨a, hfa, haw⟩ := hcw
    obtain ⟨pre, post, hsp, harcs, hal, hpre⟩ := splitArc_spec hfa
    rw [hsp]
    simp only
    have hmem : a ∈ st.arcs := by rw [harcs]; simp
    obtain ⟨haok, hanext, haord, hal1, hal2⟩ := ok.arcs a hmem (by rw [hal]; exact hy)
    rw [needsNewState_spec ho hs hanext haord]
    simp only [Res.pure_bind]
    -- facts on the new arcs, for any new target
    have hnodup : ∀ t, ((pre ++ { a with weight := A.nls a.weight A.one, next := t } :: post).map
        Arc.label).Nodup := by
      intro t; have := ok.nodup; rw [harcs] at this; simpa using this
    have hlead : ∀ (f : Fst A.C) t, f.states[s]? = some (bumped A st pre post a t) →
        backoff f s = backoff c.fst s ∧ storedTotal f s = storedTotal c.fst s := by
      intro f t hf
      simp only [backoff, storedTotal]
      rw [hf, hst]
      simp only [harcs, Option.bind_some]
      cases pre with
      | nil =>
        have : a.label ≠ 0 := by rw [hal]; exact hy
        simp [this]
      | cons p ps => simp
    have hstok : ∀ (n : Nat) (ord' : Nat → Nat) t, c.fst.states.length ≤ n →
        (∀ x, x < c.fst.states.length → ord' x = ord x) → t < n →
        (ord' t = ord s ∨ ord' t = ord s + 1) →
        StateOk A Ok n ord' c.maxOrder V u s (bumped A st pre post a t) := by
      intro n ord' t hn hord ht hot
      have ok' := ok.mono (ord' := ord') hn hs hord
      refine ⟨?_, hnodup t, ok'.ord_lt, ?_, ?_⟩
      · intro x hx hxl
        simp only [List.mem_append, List.mem_cons] at hx
        rcases hx with hx | rfl | hx
        · exact ok'.arcs x (by rw [harcs]; simp [hx]) hxl
        · exact ⟨L.succ _ haok, ht, by rw [hord s hs]; exact hot, hal1, hal2⟩
        · exact ok'.arcs x (by rw [harcs]; simp [hx]) hxl
      · intro e
        obtain ⟨h1, h2, h3, h4⟩ := ok'.unigram e
        refine ⟨h1, by rw [← h2, harcs]; simp, ?_, ?_⟩
        · intro x hx
          simp only [List.mem_append, List.mem_cons] at hx
          rcases hx with hx | rfl | hx
          · exact h3 x (by rw [harcs]; simp [hx])
          · exact h3 a hmem
          · exact h3 x (by rw [harcs]; simp [hx])
        · intro z hz1 hz2
          obtain ⟨x, hx, hxz⟩ := h4 z hz1 hz2
          rw [harcs] at hx
          simp only [List.mem_append, List.mem_cons] at hx
          rcases hx with hx | rfl | hx
          · exact ⟨x, by simp [hx], hxz⟩
          · exact ⟨{ x with weight := A.nls x.weight A.one, next := t }, by simp, hxz⟩
          · exact ⟨x, by simp [hx], hxz⟩
      · intro e
        obtain ⟨h1, w', b, rest, h2, h3, h4⟩ := ok'.node e
        refine ⟨h1, w', b, ?_⟩
        cases hp : pre with
        | nil =>
          rw [harcs, hp] at h2
          simp only [List.nil_append, List.cons.injEq] at h2
          rw [h2.1] at hal
          exact absurd hal.symm hy
        | cons p ps =>
          rw [harcs, hp] at h2
          simp only [List.cons_append, List.cons.injEq] at h2
          exact ⟨ps ++ { a with weight := A.nls a.weight A.one, next := t } :: post, by simp [h2.1], h3, h4⟩
    have hcounts : ∀ (f : Fst A.C) t, f.start = c.fst.start → f.states[s]? = some (bumped A st pre post a t) →
        count A f s y = some (A.nls w A.one) ∧ target f s y = some t ∧
        (∀ z, z ≠ y → count A f s z = count A c.fst s z ∧ target f s z = target c.fst s z) := by
      intro f t hstart hf
      refine ⟨?_, ?_, ?_⟩
      · rw [count_of hf]
        simp only [stateCount, if_neg hy]
        rw [find?_mid_self (a := { a with weight := A.nls a.weight A.one, next := t }) hpre hal, ← haw]; rfl
      · simp only [target, if_neg hy]
        rw [hf]
        simp only [Option.bind_some]
        rw [find?_mid_self (a := { a with weight := A.nls a.weight A.one, next := t }) hpre hal]; rfl
      · intro z hz
        have hz1 : a.label ≠ z := by rw [hal]; exact fun e => hz e.symm
        refine ⟨?_, ?_⟩
        · rw [count_of hf, count_of hst]
          simp only [stateCount]
          by_cases hz0 : z = 0
          · rw [if_pos hz0, if_pos hz0]
          · rw [if_neg hz0, if_neg hz0, harcs, find?_mid_other (a := a) (a' := { a with weight := A.nls a.weight A.one, next := t }) hz1 hz1]
        · simp only [target]
          by_cases hz0 : z = 0
          · rw [if_pos hz0, if_pos hz0, hstart]
          · rw [if_neg hz0, if_neg hz0, hf, hst]
            simp only [Option.bind_some, harcs]
            rw [find?_mid_other (a := a) (a' := { a with weight := A.nls a.weight A.one, next := t }) hz1 hz1]
    have htold : target c.fst s y = some a.next := by
      simp only [target, if_neg hy]
      rw [hst]
      simp [hfa]
    have hlen := ho.len
    by_cases hneeds : ord a.next = ord s ∧ (ord s : Int) + 1 < c.maxOrder
    · -- a new context
      have hb : decide (ord a.next = ord s ∧ (ord s : Int) + 1 < c.maxOrder) = true := by simp [hneeds]
      simp only [hb, if_true]
      have ho1 : OrdersOk { c with fst := setState c.fst (s : Int) (bumped A st pre post a c.orders.length) } ord := ho.setFst (by simp [setState])
      have hset := addNewState_spec ho1 (b := a.next) (by simpa [setState] using hanext)
      rw [hset]
      simp only [Res.pure_bind]
      rw [setState_nat, hlen]
      have hn : ({ c.fst with states := c.fst.states.set s (bumped A st pre post a c.fst.states.length) } : Fst A.C).states.length = c.fst.states.length := by simp
      -- the automaton, read as: first add the context, then change `s`
      have hcomm : withState (A := A) { c.fst with states := c.fst.states.set s (bumped A st pre post a c.fst.states.length) } a.next =
          { (withState c.fst a.next) with states := (withState c.fst a.next).states.set s (bumped A st pre post a c.fst.states.length) } := by
        simp only [withState]
        congr 1
        rw [List.set_append_left _ _ hs]
      rw [hcomm]
      have hwf1 := wf.withState L.zero hanext (by rw [hneeds.1]; exact hneeds.2)
      have hlen1 : (withState c.fst a.next).states.length = c.fst.states.length + 1 := by simp [withState]
      have hs1 : s < (withState c.fst a.next).states.length := by omega
      have hself : ((withState c.fst a.next).states.set s (bumped A st pre post a c.fst.states.length))[s]? = some (bumped A st pre post a c.fst.states.length) := List.getElem?_set_self hs1
      have hordl : ∀ x, x < c.fst.states.length →
          withOrder ord c.fst.states.length (ord a.next + 1) x = ord x := by
        intro x hx; unfold withOrder; rw [if_neg (by omega)]
      have hordn : withOrder ord c.fst.states.length (ord a.next + 1) c.fst.states.length = ord s + 1 := by
        unfold withOrder; rw [if_pos rfl, hneeds.1]
      have hbs := hlead { (withState c.fst a.next) with states := (withState c.fst a.next).states.set s (bumped A st pre post a c.fst.states.length) } c.fst.states.length hself
      have hbold : ∀ x, x < c.fst.states.length → backoff (withState c.fst a.next) x = backoff c.fst x :=
        fun x hx => backoff_congr (withState_get hx)
      have hwf2 := hwf1.setState (hstok _ _ _ (by omega) hordl (by omega) (.inr hordn)) hs1 (by
        rw [hbold s hs]; exact hbs.1)
      have hcts := hcounts { (withState c.fst a.next) with states := (withState c.fst a.next).states.set s (bumped A st pre post a c.fst.states.length) } c.fst.states.length rfl hself
      refine ⟨_, withOrder ord c.fst.states.length (ord a.next + 1), rfl,
        ⟨⟨rfl, rfl, by simp [hlen1], ?_, ?_, hordl, ?_, ?_⟩, hwf2.1, hcts.1, fun z hz => (hcts.2.2 z hz).1,
        fun z hz => (hcts.2.2 z hz).2, hbs.2, ?_, ?_⟩, fun h => absurd h hy, ?_⟩
      · intro x hx hxs
        simp only
        rw [List.getElem?_set_ne (fun e => hxs e.symm), withState_get hx]
      · intro x hx
        rw [← hbold x hx]; exact hwf2.2 x
      · intro ho'
        have := ho'.withState a.next (ord a.next + 1)
        exact this.setFst (f := { (withState c.fst a.next) with states := (withState c.fst a.next).states.set s _ })
          (by simp)
      · intro x h1 h2
        simp only [List.length_set, hlen1] at h2
        have hx : x = c.fst.states.length := by omega
        subst hx
        have hg : ({ (withState c.fst a.next) with states := (withState c.fst a.next).states.set s (bumped A st pre post a c.fst.states.length) } : Fst A.C).states[c.fst.states.length]? =
            some ⟨A.inf, [⟨0, A.one, a.next⟩]⟩ := by
          simp only
          rw [List.getElem?_set_ne (by omega), withState_new]
        refine ⟨?_, ?_⟩
        · intro z
          rw [count_of hg]
          simp only [stateCount, L.zero, if_true]
          by_cases hz : z = 0
          · rw [if_pos hz]
          · rw [if_neg hz]
            have : ((0 : Int) == z) = false := by rw [beq_eq_false_iff_ne]; omega
            simp [this]
        · simp only [storedTotal]; rw [hg]; simp
      · intro _
        exact ⟨c.fst.states.length, hcts.2.1, by simp [hlen1], .inr hordn, fun _ => hordn⟩
      · intro x h1 h2
        simp only [List.length_set, hlen1] at h2
        have hx : x = c.fst.states.length := by omega
        subst hx
        exact ⟨rfl, hcts.2.1⟩
      · intro _ d hd
        rw [htold] at hd
        injection hd with hd
        subst hd
        refine ⟨fun _ => ⟨hcts.2.1, by simp [hlen1], ?_, hordn⟩, fun h => absurd hneeds h⟩
        simp only [backoff]
        rw [List.getElem?_set_ne (by omega), withState_new]
        simp
    · have hb : decide (ord a.next = ord s ∧ (ord s : Int) + 1 < c.maxOrder) = false := by simp [hneeds]
      simp only [hb, Bool.false_eq_true, if_false]
      rw [setState_nat]
      have hself : (c.fst.states.set s (bumped A st pre post a a.next))[s]? = some (bumped A st pre post a a.next) := List.getElem?_set_self hs
      have hbs := hlead { c.fst with states := c.fst.states.set s (bumped A st pre post a a.next) } a.next hself
      have hwf2 := wf.setState (hstok _ ord a.next (by omega) (fun _ _ => rfl) hanext haord) hs hbs.1
      have hcts := hcounts { c.fst with states := c.fst.states.set s (bumped A st pre post a a.next) } a.next rfl hself
      refine ⟨_, ord, rfl, ⟨⟨rfl, rfl, by simp, ?_, fun x _ => hwf2.2 x, fun _ _ => rfl,
        fun ho' => ho'.setFst (by simp), ?_⟩, hwf2.1, hcts.1, fun z hz => (hcts.2.2 z hz).1,
        fun z hz => (hcts.2.2 z hz).2, hbs.2, ?_, ?_⟩, fun h => absurd h hy, ?_⟩
      · intro x _ hxs
        simp only
        rw [List.getElem?_set_ne (fun e => hxs e.symm)]
      · intro x h1 h2; simp at h2; omega
      · intro _
        refine ⟨a.next, hcts.2.1, by simpa using hanext, haord, ?_⟩
        intro hm
        rcases haord with h | h
        · exact absurd ⟨h, hm⟩ hneeds
        · exact h
      · intro x h1 h2; simp at h2; omega
      · intro _ d hd
        rw [htold] at hd
        injection hd with hd
        subst hd
        exact ⟨fun h => absurd h hneeds, fun _ => ⟨hcts.2.1, by simp⟩⟩

/-- appending an arc -/
theorem appendArc_added {c : Core A.C} {beta : A.D} (L : CountLaws A Ok beta) {ord : Nat → Nat}
    {V u s t : Nat} (wf : WF A Ok c.fst ord c.maxOrder V u) {st : FState A.C}
    (hst : c.fst.states[s]? = some st) {y : Int} (hy1 : 1 ≤ y) (hyV : y ≤ V)
    (hc : count A c.fst s y = none) (ht : t < c.fst.states.length)
    (hot : ord t = ord s ∨ ord t = ord s + 1) (hm : (ord s : Int) + 1 < c.maxOrder → ord t = ord s + 1)
    (hu : s ≠ u) :
    Added A Ok c { c with fst := setState c.fst (s : Int) { st with arcs := st.arcs ++ [⟨y, A.one, t⟩] } }
      ord ord V u s y A.one := by
  have ok := wf.states s st hst
  have hs := lt_of_getElem?_eq_some hst
  have hy : y ≠ 0 := by omega
  have hnot : ∀ x ∈ st.arcs, x.label ≠ y := by
    rw [count_of hst] at hc
    simp only [stateCount, if_neg hy, Option.map_eq_none_iff, List.find?_eq_none, beq_iff_eq] at hc
    exact hc
  rw [setState_nat]
  have hself : (c.fst.states.set s { st with arcs := st.arcs ++ [⟨y, A.one, t⟩] })[s]? =
      some { st with arcs := st.arcs ++ [⟨y, A.one, t⟩] } := List.getElem?_set_self hs
  obtain ⟨hf, w, b, rest, harcs, hb, hob⟩ := ok.node hu
  have hok' : StateOk A Ok c.fst.states.length ord c.maxOrder V u s
      { st with arcs := st.arcs ++ [⟨y, A.one, t⟩] } := by
    refine ⟨?_, ?_, ok.ord_lt, fun e => absurd e hu, fun _ => ⟨hf, w, b, rest ++ [⟨y, A.one, t⟩], ?_, hb, hob⟩⟩
    · intro a ha hl
      simp only [List.mem_append, List.mem_singleton] at ha
      rcases ha with ha | rfl
      · exact ok.arcs a ha hl
      · exact ⟨L.one, ht, hot, hy1, hyV⟩
    · simp only [List.map_append, List.map_cons, List.map_nil]
      rw [List.nodup_append]
      refine ⟨ok.nodup, by simp, ?_⟩
      intro x hx z hz
      simp only [List.mem_singleton] at hz
      simp only [List.mem_map] at hx
      obtain ⟨a, ha, rfl⟩ := hx
      rw [hz]; exact hnot a ha
    · simp [harcs]
  have hbs : backoff { c.fst with states := c.fst.states.set s { st with arcs := st.arcs ++ [⟨y, A.one, t⟩] } } s
      = backoff c.fst s := by
    simp only [backoff]; rw [hself, hst]; simp [harcs]
  have hwf := wf.setState hok' hs hbs
  refine ⟨⟨rfl, rfl, by simp, ?_, fun x _ => hwf.2 x, fun _ _ => rfl, fun ho => ho.setFst (by simp), ?_⟩,
    hwf.1, ?_, ?_, ?_, ?_, ?_, ?_⟩
  · intro x _ hx; simp only; rw [List.getElem?_set_ne (fun e => hx e.symm)]
  · intro x h1 h2; simp at h2; omega
  · rw [count_set_self hs]
    simp only [stateCount, if_neg hy]
    rw [List.find?_append, find?_none_of_forall hnot]; simp
  · intro z hz
    rw [count_set_self hs, count_of hst]
    simp only [stateCount]
    by_cases hz0 : z = 0
    · rw [if_pos hz0, if_pos hz0]
    · rw [if_neg hz0, if_neg hz0, List.find?_append]
      have : (y == z) = false := by rw [beq_eq_false_iff_ne]; exact fun e => hz e.symm
      simp [this]
  · intro z hz
    simp only [target]
    rw [hself, hst]
    by_cases hz0 : z = 0
    · rw [if_pos hz0, if_pos hz0]
    · rw [if_neg hz0, if_neg hz0]
      simp only [Option.bind_some]
      rw [List.find?_append]
      have : (y == z) = false := by rw [beq_eq_false_iff_ne]; exact fun e => hz e.symm
      simp [this]
  · simp only [storedTotal]; rw [hself, hst]; simp [harcs]
  · intro _
    refine ⟨t, ?_, by simpa using ht, hot, hm⟩
    simp only [target, if_neg hy]
    rw [hself]
    simp only [Option.bind_some]
    rw [List.find?_append, find?_none_of_forall hnot]; simp
  · intro x h1 h2; simp at h2; omega

/-- The rest of `UpdateNotFoundState` gives the symbol a count of one. -/
theorem updateNotFound_spec {c : Core A.C} {beta : A.D} (L : CountLaws A Ok beta) {ord : Nat → Nat}
    {V u s : Nat} (wf : WF A Ok c.fst ord c.maxOrder V u) (ho : OrdersOk c ord)
    (hs : s < c.fst.states.length) (hu : s ≠ u) {y : Int} (hy0 : 0 ≤ y) (hyV : y ≤ V)
    (hc : count A c.fst s y = none) {t : Nat} (ht : t < c.fst.states.length)
    (hot : y ≠ 0 → ord t = ord s) :
    ∃ c' ord', updateNotFound A c (s : Int) (t : Int) y = pure c' ∧
      Added A Ok c c' ord ord' V u s y A.one ∧
      (y = 0 → c'.fst.states.length = c.fst.states.length) ∧ (y ≠ 0 → Dest c c' ord ord' s y t) := by
  obtain ⟨st, hst, ok⟩ := wf.exists_state hs
  unfold updateNotFound
  by_cases hy : y = 0
  · subst hy
    rw [if_pos rfl, state?_nat, hst]
    exact ⟨_, ord, rfl, setFinal_added L.one (L.finite _ L.one) wf hst, fun _ => by simp [setState],
      fun h => absurd rfl h⟩
  · rw [if_neg hy]
    have hy1 : 1 ≤ y := by omega
    rw [needsNewState_spec ho hs ht (.inl (hot hy))]
    simp only [Res.pure_bind]
    by_cases hm : (ord s : Int) + 1 < c.maxOrder
    · have hb : decide (ord t = ord s ∧ (ord s : Int) + 1 < c.maxOrder) = true := by simp [hot hy, hm]
      rw [hb]
      simp only [newDestination, if_true]
      rw [toNat_coe, addNewState_spec ho ht]
      simp only [Res.pure_bind]
      rw [state?_nat, withState_get hs, hst]
      simp only
      have hwf1 := wf.withState L.zero ht (by rw [hot hy]; exact hm)
      have hlen1 : (withState c.fst t).states.length = c.fst.states.length + 1 := by simp [withState]
      have hordl : ∀ x, x < c.fst.states.length →
          withOrder ord c.fst.states.length (ord t + 1) x = ord x := by
        intro x hx; unfold withOrder; rw [if_neg (by omega)]
      have hordn : withOrder ord c.fst.states.length (ord t + 1) c.fst.states.length = ord s + 1 := by
        unfold withOrder; rw [if_pos rfl, hot hy]
      have hst1 : (withState c.fst t).states[s]? = some st := by rw [withState_get hs]; exact hst
      have hadd := appendArc_added (c := { c with
          fst := withState c.fst t
          orders := c.orders ++ [(ord t : Int) + 1] }) L hwf1 hst1 hy1 hyV
        (t := c.fst.states.length) (by rw [count_of hst1, ← count_of hst]; exact hc)
        (by simp only; omega)
        (.inr (by rw [hordl s hs]; exact hordn)) (fun _ => by rw [hordl s hs]; exact hordn) hu
      have hnew : target (setState (withState c.fst t) (s : Int) { st with arcs := st.arcs ++ [⟨y, A.one, c.fst.states.length⟩] }) s y =
          some c.fst.states.length := by
        rw [setState_nat]
        simp only [target, if_neg hy]
        rw [List.getElem?_set_self (by omega)]
        simp only [Option.bind_some]
        rw [List.find?_append, find?_none_of_forall (by
          rw [count_of hst] at hc
          simpa [stateCount, hy] using hc)]
        simp
      refine ⟨_, _, rfl, ⟨⟨rfl, hadd.start, ?_, ?_, ?_, hordl, ?_, ?_⟩, hadd.wf, hadd.count_self, ?_, ?_, ?_,
        ?_, ?_⟩, fun h => absurd h hy, ?_⟩
      · have := hadd.len; simp only at this ⊢; omega
      · intro x hx hxs
        have := hadd.others x (by simp only; omega) hxs
        simp only at this ⊢
        rw [this, withState_get hx]
      · intro x hx
        have := hadd.sameBackoff x (by simp only; omega)
        simp only at this ⊢
        rw [this]
        exact backoff_congr (withState_get hx)
      · intro ho'
        exact hadd.orders (ho'.withState t (ord t + 1))
      · intro x h1 h2
        simp only [setState, List.length_set, hlen1] at h2
        have hx : x = c.fst.states.length := by omega
        subst hx
        have hg : ({ (withState c.fst t) with states := (withState c.fst t).states.set s { st with arcs := st.arcs ++ [⟨y, A.one, c.fst.states.length⟩] } } :
            Fst A.C).states[c.fst.states.length]? = some ⟨A.inf, [⟨0, A.one, t⟩]⟩ := by
          simp only
          rw [List.getElem?_set_ne (by omega), withState_new]
        rw [setState_nat]
        refine ⟨?_, ?_⟩
        · intro z
          rw [count_of hg]
          simp only [stateCount, L.zero, if_true]
          by_cases hz : z = 0
          · rw [if_pos hz]
          · rw [if_neg hz]
            have : ((0 : Int) == z) = false := by rw [beq_eq_false_iff_ne]; omega
            simp [this]
        · simp only [storedTotal]; rw [hg]; simp
      · intro z hz
        rw [hadd.count_other z hz, count_of hst1, count_of hst]
      · intro z hz
        rw [hadd.target_other z hz]
        simp only [target]
        rw [hst1, hst]; rfl
      · rw [hadd.total]
        simp only [storedTotal]; rw [hst1, hst]
      · intro hy'
        obtain ⟨t', h1, h2, h3, h4⟩ := hadd.next hy'
        rw [hordl s hs] at h3 h4
        exact ⟨t', h1, h2, h3, h4⟩
      · intro x h1 h2
        simp only [setState, List.length_set, hlen1] at h2
        have hx : x = c.fst.states.length := by omega
        subst hx
        exact ⟨rfl, hnew⟩
      · intro _
        refine ⟨fun _ => ⟨hnew, by simp [setState, hlen1], ?_, hordn⟩, fun h => absurd ⟨hot hy, hm⟩ h⟩
        rw [setState_nat]
        simp only [backoff]
        rw [List.getElem?_set_ne (by omega), withState_new]
        simp
    · have hb : decide (ord t = ord s ∧ (ord s : Int) + 1 < c.maxOrder) = false := by
        rw [decide_eq_false_iff_not]; exact fun h => hm h.2
      rw [hb]
      simp only [newDestination, Bool.false_eq_true, if_false, Res.pure_bind, toNat_coe]
      rw [state?_nat, hst]
      refine ⟨_, ord, rfl, appendArc_added L wf hst hy1 hyV hc ht (.inl (hot hy)) (fun h => absurd h hm) hu,
        fun h => absurd h hy, fun _ => ⟨fun h => absurd h.2 hm, fun _ => ⟨?_, by simp [setState]⟩⟩⟩
      rw [setState_nat]
      simp only [target, if_neg hy]
      rw [List.getElem?_set_self hs]
      simp only [Option.bind_some]
      rw [List.find?_append, find?_none_of_forall (by
        rw [count_of hst] at hc
        simpa [stateCount, hy] using hc)]
      simp

end Mozolm.Ppm
