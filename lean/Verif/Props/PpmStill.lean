import Verif.Props.PpmSaturation
import Verif.Props.PpmSave
import Verif.Ppm.Grows

/-!
# C113: a lesson that changes nothing

Once a symbol was taught so often after a context that counting stands still, one more lesson of it there leaves a model that answers
everything as before.
-/

namespace Mozolm.Ppm
variable {A : Arith} {Ok : A.C → Prop}

/-- arcs with the same labels in the same order, weights and destinations -/
theorem arcs_eq {C : Type} : ∀ {l l' : List (Arc C)}, l.map Arc.label = l'.map Arc.label → (l.map Arc.label).Nodup →
    (∀ y : Int, (l'.find? fun a => a.label == y).map (fun a => (a.weight, a.next)) =
      (l.find? fun a => a.label == y).map fun a => (a.weight, a.next)) → l = l'
  | [], [], _, _, _ => rfl
  | [], _ :: _, h, _, _ => by simp at h
  | _ :: _, [], h, _, _ => by simp at h
  | a :: t, a' :: t', h, hn, hf => by
    simp only [List.map_cons, List.cons.injEq] at h
    obtain ⟨hl, ht⟩ := h
    have h0 := hf a.label
    simp only [List.find?_cons, hl, beq_self_eq_true, Option.map_some, Option.some.injEq, Prod.mk.injEq] at h0
    have e : a = a' := by
      cases a; cases a'
      simp only at hl h0
      simp [hl, h0]
    subst e
    simp only [List.map_cons, List.nodup_cons] at hn
    have hn' : a.label ∉ t'.map Arc.label := by rw [← ht]; exact hn.1
    congr 1
    refine arcs_eq ht hn.2 fun y => ?_
    have := hf y
    by_cases hy : a.label = y
    · subst hy
      rw [List.find?_eq_none.2, List.find?_eq_none.2]
      · intro b hb hlb; exact hn.1 (List.mem_map.2 ⟨b, hb, by simpa using hlb⟩)
      · intro b hb hlb; exact hn' (List.mem_map.2 ⟨b, hb, by simpa using hlb⟩)
    · have hb : (a.label == y) = false := by simpa using hy
      simpa only [List.find?_cons, hb] using this

/-- `y` is full after `s`: its count and the total stand still, and its arc leads to a context as long as it can be -/
structure FullAt (A : Arith) (c : Core A.C) (ord : Nat → Nat) (s : Nat) (y : Int) (full : A.C) : Prop where
  lt : s < c.fst.states.length
  count : count A c.fst s y = some full
  total : ∀ w, storedTotal c.fst s = some w → w = full
  arc : y ≠ 0 → ∃ d, target c.fst s y = some d ∧ d < c.fst.states.length ∧ ¬ (ord d = ord s ∧ (ord s : Int) + 1 < c.maxOrder)

/-- the same counts, totals, contexts and destinations -/
structure Still (A : Arith) (c c' : Core A.C) : Prop where
  maxOrder : c'.maxOrder = c.maxOrder
  start : c'.fst.start = c.fst.start
  len : c'.fst.states.length = c.fst.states.length
  backoff : ∀ x, x < c.fst.states.length → backoff c'.fst x = backoff c.fst x
  total : ∀ x, x < c.fst.states.length → storedTotal c'.fst x = storedTotal c.fst x
  count : ∀ x y, x < c.fst.states.length → count A c'.fst x y = count A c.fst x y
  target : ∀ x y, x < c.fst.states.length → target c'.fst x y = target c.fst x y

theorem Observed.fullAt {c c' : Core A.C} {ord ord' : Nat → Nat} {V u s s' : Nat} {y y' : Int} {full : A.C}
    (hs : A.nls full A.one = full) (h : Observed A Ok c c' ord ord' V u s' y') (hf : FullAt A c ord s y full) :
    FullAt A c' ord' s y full := by
  have hlen := h.len
  have hlt := hf.lt
  have hseen : ¬ Unseen A c.fst s := fun hu => by have := hf.count; rw [hu y] at this; cases this
  refine ⟨by omega, ?_, ?_, fun hy => ?_⟩
  · by_cases hy : y = y'
    · subst hy
      by_cases he : Excluded A c.fst y s' s
      · rw [h.count_self s he, hf.count]
        show some (A.nls full A.one) = _
        rw [hs]
      · have := hf.count
        unfold Ppm.count at this ⊢
        rw [h.outside s hlt he]; exact this
    · rw [h.count_other s y hlt hy]; exact hf.count
  · intro w hw
    by_cases he : Excluded A c.fst y' s' s
    · rw [h.total_seen s he hseen] at hw
      obtain ⟨v, h1, rfl⟩ := Option.map_eq_some_iff.1 hw
      rw [hf.total v h1, hs]
    · unfold storedTotal at hw
      rw [h.outside s hlt he] at hw
      exact hf.total w hw
  · obtain ⟨d, h1, h2, h3⟩ := hf.arc hy
    refine ⟨d, ?_, by omega, by rw [h.sameOrd d h2, h.sameOrd s hlt, h.maxOrder]; exact h3⟩
    by_cases hyy : y = y'
    · subst hyy
      by_cases he : Excluded A c.fst y s' s
      · have := h.found hy s d he (by rw [hf.count]; rfl) h1
        exact this.old (by rw [h.sameOrd d h2]; exact h3)
      · unfold Ppm.target at h1 ⊢
        rw [if_neg hy] at h1 ⊢
        rw [h.outside s hlt he]; exact h1
    · rw [h.target_other s y hlt hyy]; exact h1

theorem Observes.fullAt {c c' : Core A.C} {ord ord' : Nat → Nat} {V u s : Nat} {y : Int} {full : A.C} {l : List (Nat × Int)}
    (hs : A.nls full A.one = full) (h : Observes A Ok V u c ord l c' ord') (hf : FullAt A c ord s y full) :
    FullAt A c' ord' s y full := by
  induction h with
  | nil => exact hf
  | cons _ _ _ h1 _ ih => exact ih (h1.fullAt hs hf)

/-- observing a full symbol -/
theorem Observed.still {c c' : Core A.C} {ord ord' : Nat → Nat} {V u s : Nat} {y : Int} {full : A.C}
    (hs : A.nls full A.one = full) (h : Observed A Ok c c' ord ord' V u s y) (hf : FullAt A c ord s y full) :
    Still A c c' := by
  have hseen : ¬ Unseen A c.fst s := fun hu => by have := hf.count; rw [hu y] at this; cases this
  have hex := fun x => excluded_iff_some (x := x) hf.count
  have hself := (h.fullAt hs hf)
  have htar : ∀ d, y ≠ 0 → target c.fst s y = some d → target c'.fst s y = some d := by
    intro d hy hd
    obtain ⟨d', h1, h2, h3⟩ := hf.arc hy
    rw [hd] at h1
    obtain rfl := Option.some.inj h1
    exact (h.found hy s d .here (by rw [hf.count]; rfl) hd).old (by rw [h.sameOrd d h2]; exact h3)
  have hlen : c'.fst.states.length = c.fst.states.length := by
    by_cases hy : y = 0
    · exact h.ended hy
    · by_contra hne
      have := h.len
      obtain ⟨x, h1, h2, _⟩ := h.grown c.fst.states.length (le_refl _) (by omega)
      rw [(hex x).1 h1] at h2
      obtain ⟨d, h3, h4, _⟩ := hf.arc hy
      rw [htar d hy h3] at h2
      have := Option.some.inj h2
      omega
  refine ⟨h.maxOrder, h.start, hlen, h.sameBackoff, fun x hx => ?_, fun x z hx => ?_, fun x z hx => ?_⟩
  · by_cases he : x = s
    · subst he
      rw [h.total_seen x .here hseen]
      cases ht : storedTotal c.fst x with
      | none => rfl
      | some w => rw [hf.total w ht]; show some (A.nls full A.one) = _; rw [hs]
    · unfold storedTotal
      rw [h.outside x hx fun k => he ((hex x).1 k)]
  · by_cases he : x = s
    · subst he
      by_cases hz : z = y
      · subst hz; rw [hself.count, hf.count]
      · exact h.count_other x z hx hz
    · unfold Ppm.count
      rw [h.outside x hx fun k => he ((hex x).1 k)]
  · by_cases he : x = s
    · subst he
      by_cases hz : z = y
      · subst hz
        by_cases h0 : z = 0
        · subst h0; simp only [Ppm.target, if_true, h.start]
        · obtain ⟨d, h1, _⟩ := hf.arc h0
          rw [h1, htar d h0 h1]
      · exact h.target_other x z hx hz
    · unfold Ppm.target
      rw [h.outside x hx fun k => he ((hex x).1 k), h.start]

theorem Still.trans {c c1 c2 : Core A.C} (h : Still A c c1) (h' : Still A c1 c2) : Still A c c2 :=
  ⟨h'.maxOrder.trans h.maxOrder, h'.start.trans h.start, h'.len.trans h.len,
    fun x hx => (h'.backoff x (by rw [h.len]; exact hx)).trans (h.backoff x hx),
    fun x hx => (h'.total x (by rw [h.len]; exact hx)).trans (h.total x hx),
    fun x y hx => (h'.count x y (by rw [h.len]; exact hx)).trans (h.count x y hx),
    fun x y hx => (h'.target x y (by rw [h.len]; exact hx)).trans (h.target x y hx)⟩

theorem Observes.still {s V u : Nat} {y : Int} {full : A.C} (hs : A.nls full A.one = full) : ∀ (k : Nat) {c c' : Core A.C} {ord ord' : Nat → Nat},
    WF A Ok c.fst ord c.maxOrder V u → Observes A Ok V u c ord (List.replicate k (s, y)) c' ord' → FullAt A c ord s y full → Still A c c' ∧ ∀ x, x < c.fst.states.length → ord' x = ord x := by
  intro k
  induction k with
  | zero =>
    intro c c' ord ord' _ h _
    cases h
    exact ⟨⟨rfl, rfl, rfl, fun _ _ => rfl, fun _ _ => rfl, fun _ _ _ => rfl, fun _ _ _ => rfl⟩, fun _ _ => rfl⟩
  | succ k ih =>
    intro c c' ord ord' wf h hf
    cases h with
    | cons _ _ _ h1 h2 =>
      obtain ⟨i1, i2⟩ := ih h1.wf h2 (h1.fullAt hs hf)
      have hlen := h1.len
      exact ⟨(h1.still hs hf).trans i1, fun x hx => (i2 x (by omega)).trans (h1.sameOrd x hx)⟩

/-- the same counts, totals, contexts, destinations and order of arcs: the same automaton -/
theorem Still.coreLike {c c' : Core A.C} {ord ord' : Nat → Nat} {V u : Nat} (hinf : ∀ w, A.isInf w = true → w = A.inf)
    (h : Still A c c') (wf : WF A Ok c.fst ord c.maxOrder V u) (wf' : WF A Ok c'.fst ord' c'.maxOrder V u) (ha : Appended c.fst c'.fst)
    (ho : OrdersOk c ord) (ho' : OrdersOk c' ord') (hord : ∀ x, x < c.fst.states.length → ord' x = ord x) : CoreLike A true c c' := by
  refine ⟨⟨h.start.symm, h.len.symm, fun s st hst => ?_⟩, fun _ => ?_, h.maxOrder.symm⟩
  · have hs : s < c.fst.states.length := lt_of_getElem?_eq_some hst
    obtain ⟨st', hst', hpre⟩ := ha s st hst
    refine ⟨st', hst', .same ?_⟩
    have ok := wf.states s st hst
    have ok' := wf'.states s st' hst'
    have hcount : ∀ y, stateCount A st' y = stateCount A st y := fun y => by
      have := h.count s y hs
      rw [count_of hst, count_of hst'] at this
      exact this
    have hfinal : st.final = st'.final := by
      have := hcount 0
      unfold stateCount at this
      rw [if_pos rfl, if_pos rfl] at this
      by_cases h1 : A.isInf st.final = true
      · by_cases h2 : A.isInf st'.final = true
        · rw [hinf _ h1, hinf _ h2]
        · rw [if_pos h1, if_neg h2] at this; cases this
      · by_cases h2 : A.isInf st'.final = true
        · rw [if_neg h1, if_pos h2] at this; cases this
        · rw [if_neg h1, if_neg h2] at this; exact (Option.some.inj this).symm
    have hfind : ∀ y : Int, (st'.arcs.find? fun a => a.label == y).map (fun a => (a.weight, a.next)) =
        (st.arcs.find? fun a => a.label == y).map fun a => (a.weight, a.next) := by
      intro y
      by_cases hy : y = 0
      · subst hy
        by_cases hu : s = u
        · have f1 : (st'.arcs.find? fun a => a.label == 0) = none :=
            List.find?_eq_none.2 fun a ha' => by simpa using (ok'.unigram hu).2.2.1 a ha'
          have f2 : (st.arcs.find? fun a => a.label == 0) = none :=
            List.find?_eq_none.2 fun a ha' => by simpa using (ok.unigram hu).2.2.1 a ha'
          rw [f1, f2]
        · obtain ⟨_, w, b, r, e1, _⟩ := ok.node hu
          obtain ⟨_, w', b', r', e1', _⟩ := ok'.node hu
          have h1 := h.total s hs
          have h2 := h.backoff s hs
          have h1 : some w' = some w := by
            have h1 := h1
            unfold storedTotal at h1
            rw [hst, hst'] at h1
            simpa only [Option.bind_some, e1, e1', if_true] using h1
          have h2 : some b' = some b := by
            have h2 := h2
            unfold Ppm.backoff at h2
            rw [hst, hst'] at h2
            simpa only [e1, e1', if_true] using h2
          injection h1 with h1
          injection h2 with h2
          rw [e1, e1']
          simp [h1, h2]
      · have h1 := hcount y
        unfold stateCount at h1
        rw [if_neg hy, if_neg hy] at h1
        have h2 := h.target s y hs
        unfold Ppm.target at h2
        rw [if_neg hy, if_neg hy, hst, hst'] at h2
        simp only [Option.bind_some] at h2
        generalize (st'.arcs.find? fun a => a.label == y) = p at h1 h2 ⊢
        generalize (st.arcs.find? fun a => a.label == y) = q at h1 h2 ⊢
        cases p <;> cases q <;> simp_all
    have hlab : st.arcs.map Arc.label = st'.arcs.map Arc.label := by
      obtain ⟨r, hr⟩ := hpre
      cases r with
      | nil => simpa using hr
      | cons z r =>
        exfalso
        have hz : z ∈ st'.arcs.map Arc.label := by rw [← hr]; simp
        obtain ⟨a, ha1, ha2⟩ := List.mem_map.1 hz
        have hsome : (st'.arcs.find? fun a => a.label == z).isSome = true := by
          rw [List.find?_isSome]; exact ⟨a, ha1, by simpa using ha2⟩
        have hsome2 : (st.arcs.find? fun a => a.label == z).isSome = true := by
          have := congrArg Option.isSome (hfind z)
          simp only [Option.isSome_map] at this
          rw [← this]; exact hsome
        rw [List.find?_isSome] at hsome2
        obtain ⟨b, hb1, hb2⟩ := hsome2
        have hn := ok'.nodup
        rw [← hr] at hn
        exact (List.nodup_append.1 hn).2.2 z (List.mem_map.2 ⟨b, hb1, by simpa using hb2⟩) z (by simp) rfl
    have := arcs_eq hlab ok.nodup hfind
    cases st; cases st'
    simp only at hfinal this
    rw [hfinal, this]
  · apply List.ext_getElem?
    intro i
    by_cases hi : i < c.fst.states.length
    · rw [ho.get i hi, ho'.get i (by rw [h.len]; exact hi), hord i hi]
    · rw [List.getElem?_eq_none (by rw [ho.len]; omega), List.getElem?_eq_none (by rw [ho'.len, h.len]; omega)]

section
variable {o : Options A.D} {m0 m m1 m2 m3 : Model A} {encode : Int → Str} {tr tr' : List (Op × Answer A)}

/-- **C113** After a symbol was taught more than `N` times after a context, and any history of calls from then on, teaching it there once
more, however often, leaves a model that no history of calls can tell from the one before. -/
theorem C113_still (hc : Counting A (initParameters A o).beta) (hinf : ∀ w, A.isInf w = true → w = A.inf)
    (hi : Initial A (Reached A) o m0) (ht : TotalsReached A m0.core.fst)
    (hr : Run encode m0 tr m) {N : Nat} (hN : Stalls A N) (hdyn : m.static = false) {s : Nat} (hs : s < m.core.fst.states.length)
    {sym n : Int} (hn : (N : Int) < n) {y : Int} (hy : y = if sym > 0 then m.symbols.findLabel (encode sym) else sym) (hy0 : 0 ≤ y)
    {r : Bool} (hup : updateLMCounts encode s [sym] n m = .ok (r, m1)) (hr' : Run encode m1 tr' m2) {k : Int}
    {r' : Bool} (hup' : updateLMCounts encode s [sym] k m2 = .ok (r', m3)) : Indistinguishable m2 m3 := by
  obtain ⟨ord0, V, u, h0⟩ := hi.inv hc.laws
  obtain ⟨ord, h, hinv, _, hobs0, _⟩ := run_inv hr h0
  have hfullN : A.nls (grown A A.one N) A.one = grown A A.one N := hN
  -- one lesson
  have lesson : ∀ {ma mb : Model A} {orda : Nat → Nat} {q : Int} {b : Bool}, Inv A (Reached A) ma orda V u → ma.static = false →
      ma.symbols = m.symbols → s < ma.core.fst.states.length → 0 < q → updateLMCounts encode s [sym] q ma = .ok (b, mb) →
      ∃ ordb, Observes A (Reached A) V u ma.core orda (List.replicate q.toNat (s, y)) mb.core ordb ∧ Inv A (Reached A) mb ordb V u ∧
        Params ma mb ∧ Appended ma.core.fst mb.core.fst := by
    intro ma mb orda q b hinv hdyn hsym hslt hq hup
    obtain ⟨t, c', ord', hobs, _, _, hact⟩ := updateSymbol_action (g := ma.sig) hinv.laws hinv.wf (hinv.orders hdyn)
      hinv.labels encode hq sym hslt
    have hidx : symIndex encode ma.sig.symbols sym = y := by
      show symIndex encode ma.symbols sym = y
      rw [hsym]; exact hy.symm
    rw [hidx, if_neg (by omega)] at hobs
    obtain ⟨mc, e1, e2, e3, e4⟩ := hact ma rfl hinv.cache
    have hall : updateSymbols encode q (s : Int) [sym] ma = .ok (some (), mc) := by
      show (updateSymbol encode q (s : Int) sym >>= fun t => updateSymbols encode q t []) ma = _
      rw [PM.bind_some e1]; rfl
    have hfull : updateLMCounts encode s [sym] q ma = .ok (true, mc) := by
      unfold updateLMCounts
      rw [hdyn, if_neg (by simp; omega)]
      exact orElse_some (a := ()) (f := fun _ => true) hall
    rw [hfull] at hup
    injection hup with hup
    injection hup with hb hm
    subst hm; subst e3
    exact ⟨ord', hobs, hinv.after hobs e2 e4, e2, updateSymbols_grows encode q [sym] s ma _ _ hall⟩
  obtain ⟨ord1, o1, inv1, p1, _⟩ := lesson hinv hdyn rfl hs (by omega) hup
  -- after the first lesson
  have full1 : FullAt A m1.core ord1 s y (grown A A.one N) := by
    have hlen := o1.len
    have hcnt := C113_saturates hc hi hr hN hdyn hs hn hy hy0 hup
    obtain ⟨k1, hk⟩ : ∃ k, n.toNat = k + 1 := ⟨n.toNat - 1, by omega⟩
    refine ⟨by omega, hcnt, fun w hw => ?_, fun hy1 => ?_⟩
    · by_cases hb : ∃ b, backoff m.core.fst s = some b
      · obtain ⟨b, hb⟩ := hb
        have := (C113_totals hc hi ht hr hN hdyn hb hn hy hy0 hup).1
        rw [this] at hw
        exact (Option.some.inj hw).symm
      · exfalso
        have hb1 : backoff m1.core.fst s = backoff m.core.fst s := by
          obtain ⟨m1', f1, _, f2, _⟩ := C26_update_succeeds hc.laws hi hr hs [sym] n
          rw [hup] at f1
          injection f1 with f1
          injection f1 with _ f1
          subst f1
          exact f2 s hs
        apply hb
        rw [← hb1]
        unfold storedTotal at hw
        unfold backoff
        cases hst : m1.core.fst.states[s]? with
        | none => rw [hst] at hw; cases hw
        | some st =>
          rw [hst] at hw
          simp only [Option.bind_some] at hw ⊢
          cases ha : st.arcs with
          | nil => rw [ha] at hw; cases hw
          | cons a r =>
            rw [ha] at hw
            by_cases hl : a.label = 0
            · exact ⟨a.next, by simp [hl]⟩
            · simp [hl] at hw
    · rw [hk, List.replicate_succ] at o1
      have last : ∀ (k : Nat) {c c' : Core A.C} {od od' : Nat → Nat}, c.maxOrder = m1.core.maxOrder → s < c.fst.states.length →
          (∃ d, target c.fst s y = some d ∧ d < c.fst.states.length ∧ ¬ (od d = od s ∧ (od s : Int) + 1 < c.maxOrder)) →
          (count A c.fst s y).isSome = true →
          Observes A (Reached A) V u c od (List.replicate k (s, y)) c' od' →
          ∃ d, target c'.fst s y = some d ∧ d < c'.fst.states.length ∧ ¬ (od' d = od' s ∧ (od' s : Int) + 1 < c'.maxOrder) := by
        intro k
        induction k with
        | zero => intro c c' od od' _ _ hd _ hobs; cases hobs; exact hd
        | succ k ih =>
          intro c c' od od' hmo hsl hd hcs hobs
          cases hobs with
          | cons _ _ _ g1 g2 =>
            obtain ⟨d, d1, d2, d3⟩ := hd
            have hl1 := g1.len
            refine ih (by rw [g1.maxOrder]; exact hmo) (by omega) ⟨d, ?_, by omega, ?_⟩ (by rw [g1.count_self s .here]; rfl) g2
            · exact (g1.found hy1 s d .here hcs d1).old (by rw [g1.sameOrd d d2]; exact d3)
            · rw [g1.sameOrd d d2, g1.sameOrd s hsl, g1.maxOrder]; exact d3
      have hmo1 := o1.maxOrder
      have hs' := hs
      revert o1
      intro o1
      cases o1 with
      | cons _ _ _ g1 g2 =>
        have hl1 := g1.len
        refine last k1 (by have := g2.maxOrder; exact this.symm) (by omega) ?_ (by rw [g1.count_self s .here]; rfl) g2
        obtain ⟨t, t1, t2, t3⟩ := g1.next
        obtain ⟨t4, t5⟩ := t3 hy1
        refine ⟨t, t1, t2, ?_⟩
        rw [g1.sameOrd s hs, g1.maxOrder]
        rintro ⟨q1, q2⟩
        have := t5 q2
        omega
  -- the calls in between
  obtain ⟨ord2, h2, inv2, p2, o2, _⟩ := run_inv hr' inv1
  have full2 := o2.fullAt hfullN full1
  have hst2 : m2.static = false := by rw [p2.static, p1.static]; exact hdyn
  by_cases hk : 0 < k
  · obtain ⟨ord3, o3, inv3, p3, a3⟩ := lesson inv2 hst2 (p2.symbols.trans p1.symbols) full2.lt hk hup'
    obtain ⟨st, hord⟩ := Observes.still hfullN _ inv2.wf o3 full2
    have hst3 : m3.static = false := by rw [p3.static]; exact hst2
    exact Alike.indistinguishable (Ok := Reached A) ⟨⟨_, _, _, inv2⟩, ⟨_, _, _, inv3⟩,
      st.coreLike hinf inv2.wf inv3.wf a3 (inv2.orders hst2) (inv3.orders hst3) hord, p3.alpha, p3.beta, p3.symbols, fun _ => p3.static⟩
  · unfold updateLMCounts at hup'
    rw [if_pos (by simp; right; omega)] at hup'
    injection hup' with hup'
    injection hup' with _ hup'
    subst hup'
    exact fun _ _ => Iff.rfl
end

namespace SaturationDemo
open Demo (enc vocab vocab_ok)

open Classical in
/-- `a` is taught until its count stands still, `b` five times; a million lessons of `a` make no difference. -/
example {g : ℝ} (hg : 0 < g) : ∃ (N : Nat) (m0 m1 m2 m3 : Model (gridArith g)), Initial (gridArith g) (Reached (gridArith g)) Demo.opts m0 ∧
    updateLMCounts enc (0 : Nat) [97] (N + 1 : Int) m0 = .ok (true, m1) ∧
    updateLMCounts enc (0 : Nat) [98] 5 m1 = .ok (true, m2) ∧
    updateLMCounts enc (0 : Nat) [97] 1000000 m2 = .ok (true, m3) ∧ Indistinguishable m2 m3 := by
  obtain ⟨N, hN⟩ := grid_full hg
  have hc := grid_counting hg Demo.beta_ok
  obtain ⟨m0, hi, hsym, hst, hlen, hread⟩ := fresh hg
  obtain ⟨m1, e1, l1, _⟩ := C26_update_succeeds hc.laws hi (.nil (encode := enc)) hlen [97] (N + 1 : Int)
  have hr1 : Run enc m0 [(.update 0 [97] (N + 1 : Int), .ok true)] m1 :=
    .cons hlen (by simp only [step, wrap]; rw [e1]) .nil
  obtain ⟨m2, e2, l2, _⟩ := C26_update_succeeds hc.laws hi hr1 (s := 0) (by omega) [98] 5
  have hr2 : Run enc m1 [(.update 0 [98] 5, .ok true)] m2 :=
    .cons (show 0 < m1.core.fst.states.length by omega) (by simp only [step, wrap]; rw [e2]) .nil
  have hr12 : Run enc m0 [(.update 0 [97] (N + 1 : Int), .ok true), (.update 0 [98] 5, .ok true)] m2 :=
    .cons hlen (by simp only [step, wrap]; rw [e1]) hr2
  obtain ⟨m3, e3, _⟩ := C26_update_succeeds hc.laws hi hr12 (s := 0) (by omega) [97] 1000000
  refine ⟨N, m0, m1, m2, m3, hi, e1, e2, e3, ?_⟩
  refine C113_still hc (fun w hw => ?_) hi (vocabulary_totals hc vocab_ok hread) (.nil (encode := enc)) hN hst hlen
    (sym := 97) (n := (N + 1 : Int)) (by omega) (y := 1) (by rw [hsym]; rfl) (by omega) e1 hr2 e3
  have : decide (w = XR.pinf) = true := hw
  exact of_decide_eq_true this

end SaturationDemo
end Mozolm.Ppm
