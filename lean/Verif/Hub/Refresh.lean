import Verif.Hub.Path
import Verif.Hub.Denote
import Verif.Hub.Trace

/-!
# Hub: what the second loop of `UpdateLMCounts` recomputes

`historyLoop` recomputes the Bayesian histories of all successors of the states along the counted text,
and of nothing else.
-/

namespace Mozolm.Hub
variable {A : Arith} {σ : Type} {env : Env A σ}

/-- The history of `qst` is, for each of the components `models` (up to queries), that of `pst` with the cost
of the symbol `c` appended and the oldest entry dropped. -/
def Extends (ops : LMOps A σ) (models : List σ) (pst : HubState A.C) (c : Int) (qst : HubState A.C) : Prop :=
  ∀ (j : Nat) (m : σ), models[j]? = some m → ∃ m' row, Touch ops m m' ∧ pst.hist[j]? = some row ∧
    qst.hist[j]? = some (row.tail ++ [(ops.symScore m' (pst.modelState j) c).1]) ∧
    qst.histSum[j]? = some (rowSum A (row.tail ++ [(ops.symScore m' (pst.modelState j) c).1]))

theorem Extends.touches {ops : LMOps A σ} {ms ms' : List σ} (ht : Touches ops ms ms') {pst qst : HubState A.C} {c : Int}
    (h : Extends ops ms' pst c qst) : Extends ops ms pst c qst := by
  intro j m hm
  obtain ⟨m1, e1, e2⟩ := Pointwise.get ht hm
  obtain ⟨m', row, a, b⟩ := h j m1 e1
  exact ⟨m', row, e2.trans a, b⟩

theorem Extends.congr {ops : LMOps A σ} {ms : List σ} {pst qst pst' qst' : HubState A.C} {c : Int}
    (h : Extends ops ms pst c qst) (h1 : pst'.hist = pst.hist) (h2 : pst'.modelStates = pst.modelStates)
    (h3 : qst'.hist = qst.hist) (h4 : qst'.histSum = qst.histSum) : Extends ops ms pst' c qst' := by
  intro j m hm
  obtain ⟨m', row, a, b, d, e⟩ := h j m hm
  have : pst'.modelState j = pst.modelState j := by simp [HubState.modelState, h2]
  rw [h1, h3, h4, this]
  exact ⟨m', row, a, b, d, e⟩

theorem rowSum_snoc (l : List A.C) (x : A.C) : rowSum A (l ++ [x]) = l.foldl A.times x := by
  simp [rowSum]

/-- One recomputation, at a state whose recorded predecessor is `s`. -/
theorem bayesed_at {h : Hub A σ} (hi : Inv h) (hpos : 0 < h.hlen) {q s : Nat} {qst pst : HubState A.C}
    (hq : h.states[q]? = some qst) (hprev : qst.prev = (s : Int)) (hs : h.states[s]? = some pst) :
    (∀ i, i ≠ q → (bayesed env h q).states[i]? = h.states[i]?) ∧
    ∃ qst', (bayesed env h q).states[q]? = some qst' ∧ Extends env.toLMOps h.models pst qst.sym qst' := by
  have hb : bayesed env h q = { h with
      states := h.states.set q { qst with
        hist := List.zipWith (fun lm p => p.tail ++ [lm]) (scoreAll env.toLMOps pst qst.sym 0 h.models).1 pst.hist
        histSum := List.zipWith (fun lm p => p.tail.foldl A.times lm)
          (scoreAll env.toLMOps pst qst.sym 0 h.models).1 pst.hist }
      models := (scoreAll env.toLMOps pst qst.sym 0 h.models).2 } := by
    have hz : h.hlen ≠ 0 := by omega
    have hpv : ¬ qst.prev < 0 := by omega
    simp only [bayesed, hz, if_false, hq]
    rw [if_neg hpv]
    have : qst.prev.toNat = s := by omega
    simp only [this, hs]
  have hqlt := lt_of_getElem?_eq_some hq
  constructor
  · intro i hne
    rw [hb]
    simp [Ne.symm hne]
  · refine ⟨_, by rw [hb]; simp only [List.getElem?_set, if_true, hqlt]; rfl, ?_⟩
    intro j m hm
    have hrow : j < pst.hist.length := by
      rw [((hi.st s pst hs).hist hpos).1]; exact lt_of_getElem?_eq_some hm
    obtain ⟨row, hrow⟩ := exists_getElem?_of_lt hrow
    have hsc := scoreAll_get env.toLMOps pst qst.sym 0 h.models hm
    rw [Nat.zero_add] at hsc
    refine ⟨m, row, .refl m, hrow, ?_, ?_⟩
    · simp only [List.getElem?_zipWith, hsc, hrow]
    · simp only [List.getElem?_zipWith, hsc, hrow, rowSum_snoc]

/-- The inner loop, over successors of `s`. -/
theorem historyEach_refresh {h h' : Hub A σ} (hi : Inv h) (hpos : 0 < h.hlen) {s : Nat} {pst : HubState A.C}
    (hs : h.states[s]? = some pst) {es : List (Int × Nat)}
    (hes : ∀ e ∈ es, e.2 ≠ s ∧ ∃ qst : HubState A.C, h.states[e.2]? = some qst ∧ qst.prev = (s : Int) ∧ qst.sym = e.1)
    (he : historyEach env h es = .ok h') :
    (∀ i, i ∉ es.map Prod.snd → h'.states[i]? = h.states[i]?) ∧
    ∀ c q, (c, q) ∈ es → ∃ qst', h'.states[q]? = some qst' ∧ Extends env.toLMOps h.models pst c qst' := by
  induction es generalizing h with
  | nil =>
    simp only [historyEach, Except.ok.injEq] at he
    subst he
    exact ⟨fun _ _ => rfl, fun c q h => absurd h (by simp)⟩
  | cons e es ih =>
    obtain ⟨hne, qst, hq, hprev, hsym⟩ := hes e (by simp)
    have hlt := lt_of_getElem?_eq_some hq
    simp only [historyEach, bayes_eq (env := env) hi hlt, ok_bind] at he
    have hfr := bayesed_frame env h e.2
    obtain ⟨b1, qst1, b2, b3⟩ := bayesed_at (env := env) hi hpos hq hprev hs
    have hs' : (bayesed env h e.2).states[s]? = some pst := by rw [b1 s (Ne.symm hne)]; exact hs
    obtain ⟨c1, c2⟩ := ih (h := bayesed env h e.2) (bayesed_inv hi _) (by rw [hfr.hlen]; exact hpos) hs' (fun x hx => by
      obtain ⟨d1, xst, d2, d3, d4⟩ := hes x (by simp [hx])
      obtain ⟨xst', f1, _, f3, f4, _⟩ := hfr.symm_st d2
      exact ⟨d1, xst', f1, f4.trans d3, f3.trans d4⟩) he
    constructor
    · intro i hn
      simp only [List.map_cons, List.mem_cons, not_or] at hn
      rw [c1 i hn.2, b1 i hn.1]
    · intro c q hm
      by_cases hin : q ∈ es.map Prod.snd
      · obtain ⟨⟨c', q'⟩, hx, rfl⟩ := List.mem_map.1 hin
        obtain ⟨qst', g1, g2⟩ := c2 c' q' hx
        have hc : c' = c := by
          obtain ⟨_, x1, p1, _, p3⟩ := hes (c', q') (by simp [hx])
          obtain ⟨_, x2, p4, _, p5⟩ := hes (c, q') hm
          simp only at p1 p3 p4 p5
          rw [p1] at p4; cases p4
          exact p3.symm.trans p5
        subst hc
        exact ⟨qst', g1, g2.touches hfr.models⟩
      · rcases List.mem_cons.1 hm with h0 | h0
        · subst h0
          refine ⟨qst1, by rw [c1 _ hin]; exact b2, ?_⟩
          simp only at hsym
          rw [hsym] at b3
          exact b3
        · exact absurd (List.mem_map.2 ⟨_, h0, rfl⟩) hin

theorem turnsLeft_edge {h : Hub A σ} (hi : Inv h) (hl : Linked h) (hg : h.selfRecycled = false) {i k : Nat}
    {st : HubState A.C} (hst : h.states[i]? = some st) {c : Int} (hk : (c, k) ∈ st.nexts) :
    h.turnsLeft i < h.turnsLeft k := by
  obtain ⟨_, _, hold, kst, hk', _⟩ := (hi.st _ st hst).edges c k hk
  have := (hl hg i st hst c k hk).1
  have := lt_of_getElem?_eq_some hk'
  have := lt_of_getElem?_eq_some hst
  have := hi.le
  have := hi.last_lt
  unfold Older at hold
  unfold Hub.turnsLeft
  split <;> split <;> omega

theorem Frame.turnsLeft {h h' : Hub A σ} (f : Frame env h h') (i : Nat) : h'.turnsLeft i = h.turnsLeft i := by
  simp only [Hub.turnsLeft, f.last, f.max]

/-- The second loop along a cached path: the successors of every state passed are recomputed, everything else
stays. -/
theorem historyLoop_refresh (hf : env.Fair) {h h' : Hub A σ} (hi : Inv h) (hl : Linked h)
    (hg : h.selfRecycled = false) (hpos : 0 < h.hlen) {s t : Nat} {cs : List Int} (hp : IsPath h s cs t)
    (he : historyLoop env h s cs = .ok h') :
    (∀ i, (∀ p pst c, h.states[p]? = some pst → (c, i) ∈ pst.nexts → h.turnsLeft p < h.turnsLeft s) →
      h'.states[i]? = h.states[i]?) ∧
    ∀ pre post, cs = pre ++ post → post ≠ [] → ∃ k kst, IsPath h s pre k ∧ h'.states[k]? = some kst ∧
      ∀ c q, (c, q) ∈ kst.nexts → ∃ qst, h'.states[q]? = some qst ∧ Extends env.toLMOps h.models kst c qst := by
  induction cs generalizing h s with
  | nil =>
    simp only [historyLoop, Except.ok.injEq] at he
    subst he
    refine ⟨fun _ _ => rfl, fun pre post e hne => ?_⟩
    have := List.append_eq_nil_iff.1 e.symm
    exact absurd this.2 hne
  | cons c cs ih =>
    obtain ⟨st, k, e1, e2, e3⟩ := hp
    have hmem : ∀ e, e ∈ env.orderN st.nexts ↔ e ∈ st.nexts := fun e => (hf.permN _).mem_iff
    have hx : ∀ e ∈ env.orderN st.nexts, e.2 < h.states.length := fun e hm =>
      (hi.st _ st e1).target_lt ((hmem e).1 hm)
    obtain ⟨h1, a1, g1, f1⟩ := historyEach_ok (env := env) hi _ hx
    obtain ⟨st', b1, b2, b3, b4, b5⟩ := f1.symm_st e1
    have hn : nextState env h1 s c = .ok ((k : Int), h1) := nextState_cached b1 (by rw [b2]; exact e2)
    simp only [historyLoop] at he
    rw [if_neg (by omega)] at he
    simp only [Int.toNat_natCast, e1, a1, ok_bind, hn] at he
    obtain ⟨c1, c2⟩ := historyEach_refresh (env := env) hi hpos e1 (es := env.orderN st.nexts) (fun e hm => by
      obtain ⟨l1, qst, l2, l3⟩ := hl hg s st e1 e.1 e.2 ((hmem e).1 hm)
      obtain ⟨_, _, _, qst', l4, l5⟩ := (hi.st _ st e1).edges e.1 e.2 ((hmem e).1 hm)
      rw [l2] at l4; cases l4
      exact ⟨l1, qst, l2, l3, l5⟩) a1
    have hl1 := hl.frame f1
    have hg1 : h1.selfRecycled = false := by rw [f1.ghost]; exact hg
    obtain ⟨d1, d2⟩ := ih (h := h1) (s := k) g1.inv hl1 hg1 (by rw [f1.hlen]; exact hpos)
      (IsPath.keep f1.keep e3) he
    have hsk := turnsLeft_edge hi hl hg e1 (lookup_mem e2)
    -- the state itself keeps its history
    have hself : s ∉ (env.orderN st.nexts).map Prod.snd := by
      intro hm
      obtain ⟨⟨c', q⟩, hx, rfl⟩ := List.mem_map.1 hm
      exact absurd (turnsLeft_edge hi hl hg e1 ((hmem _).1 hx)) (Nat.lt_irrefl _)
    have hup : ∀ (p : Nat) (pst : HubState A.C), h1.states[p]? = some pst →
        ∃ pst0 : HubState A.C, h.states[p]? = some pst0 ∧ pst.nexts = pst0.nexts := fun p pst hpst => by
      obtain ⟨pst0, g1, g2, _⟩ := f1.st p pst hpst
      exact ⟨pst0, g1, g2⟩
    have hs' : h'.states[s]? = some st := by
      rw [d1 s, c1 s hself, e1]
      intro p pst c' hpst hm
      obtain ⟨pst0, q1, q2⟩ := hup p pst hpst
      rw [q2] at hm
      rw [f1.turnsLeft, f1.turnsLeft]
      exact Nat.lt_trans (turnsLeft_edge hi hl hg q1 hm) hsk
    constructor
    · intro i hi'
      have hni : i ∉ (env.orderN st.nexts).map Prod.snd := by
        intro hm
        obtain ⟨⟨c', q⟩, hx, rfl⟩ := List.mem_map.1 hm
        exact absurd (hi' s st c' e1 ((hmem _).1 hx)) (Nat.lt_irrefl _)
      rw [d1 i, c1 i hni]
      intro p pst c' hpst hm
      obtain ⟨pst0, q1, q2⟩ := hup p pst hpst
      rw [q2] at hm
      rw [f1.turnsLeft, f1.turnsLeft]
      exact Nat.lt_trans (hi' p pst0 c' q1 hm) hsk
    · intro pre post e hne
      cases pre with
      | nil =>
        refine ⟨s, st, rfl, hs', fun c' q hm => ?_⟩
        obtain ⟨qst, q1, q2⟩ := c2 c' q ((hmem _).2 hm)
        refine ⟨qst, ?_, q2⟩
        rw [d1 q, q1]
        intro p pst c2' hpst hm'
        obtain ⟨pst0, r1, r2⟩ := hup p pst hpst
        rw [r2] at hm'
        obtain ⟨_, x1, x2, x3⟩ := hl hg s st e1 c' q hm
        obtain ⟨_, y1, y2, y3⟩ := hl hg p pst0 r1 c2' q hm'
        rw [x2] at y2; cases y2
        have : p = s := by omega
        subst this
        rw [f1.turnsLeft, f1.turnsLeft]
        exact hsk
      | cons c0 pre =>
        simp only [List.cons_append, List.cons.injEq] at e
        obtain ⟨rfl, e⟩ := e
        obtain ⟨k', kst, p1, p2, p3⟩ := d2 pre post e hne
        refine ⟨k', kst, ⟨st, k, e1, e2, ?_⟩, p2, fun c' q hm => ?_⟩
        · refine IsPath.keep (h := h1) (fun i ist hist => ?_) p1
          obtain ⟨ist0, i1, i2, i3, i4, i5⟩ := f1.st i ist hist
          exact ⟨ist0, i1, i5.symm, i4.symm, i3.symm, fun c k x => by rw [← i2]; exact x⟩
        · obtain ⟨qst, q1, q2⟩ := p3 c' q hm
          exact ⟨qst, q1, q2.touches f1.models⟩

/-- The verification changes component states only. -/
theorem verifyLoop_rows {h h' : Hub A σ} {s : Nat} {cs : List Int} {r : Bool}
    (he : verifyLoop env h s cs = .ok (r, h')) (i : Nat) (st : HubState A.C) (hst : h.states[i]? = some st) :
    ∃ st' : HubState A.C, h'.states[i]? = some st' ∧ st'.hist = st.hist ∧ st'.histSum = st.histSum ∧
      st'.nexts = st.nexts := by
  induction cs generalizing h s st with
  | nil =>
    simp only [verifyLoop, Except.ok.injEq, Prod.mk.injEq] at he
    rw [← he.2]
    exact ⟨st, hst, rfl, rfl, rfl⟩
  | cons c cs ih =>
    simp only [verifyLoop] at he
    split at he
    · cases he
    · next sst hsst =>
      split at he
      · simp only [Except.ok.injEq, Prod.mk.injEq] at he
        rw [← he.2]
        exact ⟨st, hst, rfl, rfl, rfl⟩
      · next k hk =>
        split at he
        · cases he
        · next kst hkst =>
          obtain ⟨⟨b, v⟩, e1, he⟩ := bind_ok.1 he
          have hv : v.hist = kst.hist ∧ v.histSum = kst.histSum ∧ v.nexts = kst.nexts := by
            unfold HubState.verifyOrCorrect at e1
            split at e1
            · simp only [Except.ok.injEq, Prod.mk.injEq] at e1
              rw [← e1.2]; exact ⟨rfl, rfl, rfl⟩
            · split at e1
              · simp only [Except.ok.injEq, Prod.mk.injEq] at e1
                rw [← e1.2]; exact ⟨rfl, rfl, rfl⟩
              · cases e1
          have hset : ∃ st1 : HubState A.C, (h.states.set k v)[i]? = some st1 ∧ st1.hist = st.hist ∧
              st1.histSum = st.histSum ∧ st1.nexts = st.nexts := by
            rw [List.getElem?_set]
            by_cases e : k = i
            · subst e
              rw [if_pos rfl, if_pos (lt_of_getElem?_eq_some hst)]
              rw [hst] at hkst; cases hkst
              exact ⟨v, rfl, hv⟩
            · rw [if_neg e]; exact ⟨st, hst, rfl, rfl, rfl⟩
          obtain ⟨st1, s1, s2, s3, s4⟩ := hset
          split at he
          · obtain ⟨st', t1, t2, t3, t4⟩ := ih he st1 s1
            exact ⟨st', t1, t2.trans s2, t3.trans s3, t4.trans s4⟩
          · simp only [Except.ok.injEq, Prod.mk.injEq] at he
            rw [← he.2]
            exact ⟨st1, s1, s2, s3, s4⟩

/-- Queries about a component's own states do not change the costs it gives at its states. -/
structure LMOps.Steady (ops : LMOps A σ) (live : σ → Prop) (ok : σ → Int → Prop) : Prop where
  closed : ops.ClosedOn live ok
  next : ∀ m s c x d, live m → ok m s → ok m x → (ops.symScore (ops.next m s c).2 x d).1 = (ops.symScore m x d).1
  extract : ∀ m s x d, live m → ok m s → ok m x → (ops.symScore (ops.extract m s).2 x d).1 = (ops.symScore m x d).1
  score : ∀ m s c x d, live m → ok m s → ok m x → (ops.symScore (ops.symScore m s c).2 x d).1 = (ops.symScore m x d).1

theorem LMOps.Steady.touch {ops : LMOps A σ} {live : σ → Prop} {ok : σ → Int → Prop} (hs : ops.Steady live ok) {a b : σ}
    (h : Touch (ops.guard live ok) a b) (ha : live a) :
    live b ∧ ∀ x, ok a x → ok b x ∧ ∀ d, (ops.symScore b x d).1 = (ops.symScore a x d).1 := by
  classical
  induction h with
  | refl => exact ⟨ha, fun x hx => ⟨hx, fun _ => rfl⟩⟩
  | next s c _ ih =>
    simp only [LMOps.guard]; split
    · next hk =>
      refine ⟨hs.closed.live_next _ _ _ hk.1 hk.2, fun x hx => ?_⟩
      obtain ⟨h1, h2⟩ := ih.2 x hx
      exact ⟨hs.closed.keep_next _ _ _ _ hk.1 hk.2 h1, fun d => (hs.next _ _ _ _ _ hk.1 hk.2 h1).trans (h2 d)⟩
    · exact ih
  | extract s _ ih =>
    simp only [LMOps.guard]; split
    · next hk =>
      refine ⟨hs.closed.live_extract _ _ hk.1 hk.2, fun x hx => ?_⟩
      obtain ⟨h1, h2⟩ := ih.2 x hx
      exact ⟨hs.closed.keep_extract _ _ _ hk.1 hk.2 h1, fun d => (hs.extract _ _ _ _ hk.1 hk.2 h1).trans (h2 d)⟩
    · exact ih
  | score s c _ ih =>
    simp only [LMOps.guard]; split
    · next hk =>
      refine ⟨hs.closed.live_score _ _ _ hk.1 hk.2, fun x hx => ?_⟩
      obtain ⟨h1, h2⟩ := ih.2 x hx
      exact ⟨hs.closed.keep_score _ _ _ _ hk.1 hk.2 h1, fun d => (hs.score _ _ _ _ _ hk.1 hk.2 h1).trans (h2 d)⟩
    · exact ih

theorem lastN_lastN_snoc {α : Type} (n : Nat) (l : List α) (x : α) :
    lastN n (lastN n l ++ [x]) = lastN n (l ++ [x]) := by
  unfold lastN
  by_cases h : n ≤ l.length
  · apply List.ext_getElem?
    intro i
    simp only [List.getElem?_drop, List.getElem?_append, List.length_drop, List.length_append, List.length_singleton]
    by_cases h1 : l.length - (l.length - n) + 1 - n + i < l.length - (l.length - n)
    · rw [if_pos h1, if_pos (by omega)]
      congr 1; omega
    · rw [if_neg h1, if_neg (by omega)]
      congr 1; omega
  · have : l.length - n = 0 := by omega
    rw [this, List.drop_zero]

/-- The start state has no predecessor and an empty history: all costs are those of probability one. -/
def FreshStart (h : Hub A σ) : Prop :=
  ∃ st : HubState A.C, h.states[0]? = some st ∧ st.prev = -1 ∧
    st.hist = (initHist A h.models.length h.hlen).1 ∧ st.histSum = (initHist A h.models.length h.hlen).2

theorem freshStart_preserved (hf : env.Fair) : Preserved env FreshStart (fun _ h => FreshStart h) where
  models h ms hi hS ht := by
    obtain ⟨st, e1, e2, e3, e4⟩ := hS
    exact ⟨st, e1, e2, by rw [e3]; simp only [ht.length_eq], by rw [e4]; simp only [ht.length_eq]⟩
  create h s st c hi hS hst hl hc := by
    have ht := nextAll_touches env.toLMOps st c 0 h.models
    have hi' := hi.setModels ht.length_eq.symm
    obtain ⟨st0, e1, e2, e3, e4⟩ := hS
    have hv : 0 ≠ victim { h with models := (nextAll env.toLMOps st c 0 h.models).2 } := by
      have := victim_pos hi; show 0 ≠ victim h; omega
    obtain ⟨st', f1, _, _, f4, f5, f6, _⟩ := created_other (env := env)
      (ms := (nextAll env.toLMOps st c 0 h.models).1) hf hi' hst hl hv e1
    refine ⟨st', f1, ?_, ?_, ?_⟩
    · rcases f6 with h6 | h6
      · exact h6
      · rw [h6]
        unfold kept
        split
        · rfl
        · exact e2
    · rw [f4]
      unfold kept
      split
      · simp only [startState, HubState.mk', List.length_map]; rfl
      · rw [e3, ht.length_eq]; rfl
    · rw [f5]
      unfold kept
      split
      · simp only [startState, HubState.mk', List.length_map]; rfl
      · rw [e4, ht.length_eq]; rfl
  pend h s hi hs hL := by
    obtain ⟨st, e1, e2, e3, e4⟩ := hL
    have hfr := bayesed_frame env h s
    by_cases h0 : s = 0
    · subst h0
      have hb : bayesed env h 0 = h := by
        unfold bayesed
        simp only [e1]
        rw [if_pos (show st.prev < 0 by omega), ite_self]
      rw [hb]
      exact ⟨st, e1, e2, e3, e4⟩
    · refine ⟨st, ?_, e2, by rw [hfr.hlen, ← hfr.models.length_eq]; exact e3,
        by rw [hfr.hlen, ← hfr.models.length_eq]; exact e4⟩
      rw [← e1]
      unfold bayesed
      split
      · rfl
      · split
        · rfl
        · split
          · rfl
          · split
            · rfl
            · simp [h0]
  hist h s hi hs hL := by
    obtain ⟨st, e1, e2, e3, e4⟩ := hL
    have hfr := bayesed_frame env h s
    by_cases h0 : s = 0
    · subst h0
      have hb : bayesed env h 0 = h := by
        unfold bayesed
        simp only [e1]
        rw [if_pos (show st.prev < 0 by omega), ite_self]
      rw [hb]
      exact ⟨st, e1, e2, e3, e4⟩
    · refine ⟨st, ?_, e2, by rw [hfr.hlen, ← hfr.models.length_eq]; exact e3,
        by rw [hfr.hlen, ← hfr.models.length_eq]; exact e4⟩
      rw [← e1]
      unfold bayesed
      split
      · rfl
      · split
        · rfl
        · split
          · rfl
          · split
            · rfl
            · simp [h0]
  verify h s k st kst c hi hS hst hl hk hp hc := by
    have ht := nextAll_touches env.toLMOps st c 0 h.models
    have hk1 : k ≠ 0 := by
      have := ((hi.st s st hst).edges c k (lookup_mem hl)).2.1; omega
    obtain ⟨st0, e1, e2, e3, e4⟩ := hS
    refine ⟨st0, ?_, e2, ?_, ?_⟩
    · simp only [verified, List.getElem?_set, if_neg hk1]; exact e1
    · rw [e3, ht.length_eq]; rfl
    · rw [e4, ht.length_eq]; rfl

theorem initial_freshStart (models : List σ) (ws : List A.C) (hlen max : Nat) :
    FreshStart (initial env models ws hlen max) :=
  ⟨_, rfl, rfl, by simp [initial, HubState.mk'], by simp [initial, HubState.mk']⟩

end Mozolm.Hub
