import Verif.Hub.Guard
import Verif.Hub.Denote
import Verif.Hub.Few

/-!
# Hub: what a state answers depends only on what was typed

A component may number its states in the order in which it was asked for them (the word model does), so
the same text can lead to different state ids in different histories.  `den m s p`: the state `s` of the
component `m` stands for the typed text `p`.  If the answers of the components are determined by the text
their states stand for, so are those of the hub.
-/

namespace Mozolm.Hub
variable {A : Arith} {σ : Type} {env : Env A σ} {live : σ → Prop} {ok : σ → Int → Prop}
  {den : σ → Int → List Int → Prop} {ans : σ → List Int → Option (LMScores A.D)}
  {cost : σ → List Int → Int → A.C}

/-- `m'` is the component `m` after a call: its states still stand for what they stood for, and it gives the
same answers. -/
structure Kept (ok : σ → Int → Prop) (den : σ → Int → List Int → Prop)
    (ans : σ → List Int → Option (LMScores A.D)) (cost : σ → List Int → Int → A.C) (m m' : σ) : Prop where
  states : ∀ x p, ok m x → den m x p → den m' x p
  answers : ans m' = ans m
  costs : cost m' = cost m

theorem Kept.refl (m : σ) : Kept ok den ans cost m m := ⟨fun _ _ _ h => h, rfl, rfl⟩

/-- The answers of the components are those to the text their states stand for. -/
structure LMOps.Traces (ops : LMOps A σ) (live : σ → Prop) (ok : σ → Int → Prop)
    (den : σ → Int → List Int → Prop) (ans : σ → List Int → Option (LMScores A.D))
    (cost : σ → List Int → Int → A.C) : Prop where
  closed : ops.ClosedOn live ok
  start : ∀ m, live m → den m (ops.start m) []
  next : ∀ m s c p, live m → ok m s → den m s p → 0 ≤ c →
    den (ops.next m s c).2 (ops.next m s c).1 (p ++ [c])
  extract : ∀ m s p, live m → ok m s → den m s p → (ops.extract m s).1 = ans m p
  score : ∀ m s c p, live m → ok m s → den m s p → 0 ≤ c → (ops.symScore m s c).1 = cost m p c
  kept_next : ∀ m s c, live m → ok m s → Kept ok den ans cost m (ops.next m s c).2
  kept_extract : ∀ m s, live m → ok m s → Kept ok den ans cost m (ops.extract m s).2
  kept_score : ∀ m s c, live m → ok m s → Kept ok den ans cost m (ops.symScore m s c).2
  kept_update : ∀ m s cs n, live m → ok m s → Kept ok den ans cost m (ops.update m s cs n).2

theorem LMOps.Traces.touch {ops : LMOps A σ} (ht : ops.Traces live ok den ans cost) {a b : σ}
    (h : TouchU (ops.guard live ok) a b) (ha : live a) :
    live b ∧ (∀ x, ok a x → ok b x) ∧ Kept ok den ans cost a b := by
  classical
  have step : ∀ {b b' : σ}, (live b ∧ (∀ x, ok a x → ok b x) ∧ Kept ok den ans cost a b) → live b' →
      (∀ x, ok b x → ok b' x) → Kept ok den ans cost b b' →
      live b' ∧ (∀ x, ok a x → ok b' x) ∧ Kept ok den ans cost a b' := by
    rintro b b' ⟨h1, h2, h3⟩ g1 g2 g3
    exact ⟨g1, fun x hx => g2 x (h2 x hx), fun x p hx hp => g3.states x p (h2 x hx) (h3.states x p hx hp),
      g3.answers.trans h3.answers, g3.costs.trans h3.costs⟩
  induction h with
  | refl => exact ⟨ha, fun _ h => h, .refl _⟩
  | next s c _ ih =>
    simp only [LMOps.guard]; split
    · next hk =>
      exact step ih (ht.closed.live_next _ _ _ hk.1 hk.2)
        (fun x hx => ht.closed.keep_next _ _ _ _ hk.1 hk.2 hx) (ht.kept_next _ _ _ hk.1 hk.2)
    · exact ih
  | extract s _ ih =>
    simp only [LMOps.guard]; split
    · next hk =>
      exact step ih (ht.closed.live_extract _ _ hk.1 hk.2)
        (fun x hx => ht.closed.keep_extract _ _ _ hk.1 hk.2 hx) (ht.kept_extract _ _ hk.1 hk.2)
    · exact ih
  | score s c _ ih =>
    simp only [LMOps.guard]; split
    · next hk =>
      exact step ih (ht.closed.live_score _ _ _ hk.1 hk.2)
        (fun x hx => ht.closed.keep_score _ _ _ _ hk.1 hk.2 hx) (ht.kept_score _ _ _ hk.1 hk.2)
    · exact ih
  | update s cs n _ ih =>
    simp only [LMOps.guard]; split
    · next hk =>
      exact step ih (ht.closed.live_update _ _ _ _ hk.1 hk.2)
        (fun x hx => ht.closed.keep_update _ _ _ _ _ hk.1 hk.2 hx) (ht.kept_update _ _ _ _ hk.1 hk.2)
    · exact ih

/-- The costs of the symbols of a text, each after the symbols before it. -/
def traceCosts {C : Type} (cost : List Int → Int → C) (done : List Int) : List Int → List C
  | [] => []
  | c :: cs => cost done c :: traceCosts cost (done ++ [c]) cs

theorem traceCosts_append {C : Type} (cost : List Int → Int → C) (done as bs : List Int) :
    traceCosts cost done (as ++ bs) = traceCosts cost done as ++ traceCosts cost (done ++ as) bs := by
  induction as generalizing done with
  | nil => simp [traceCosts]
  | cons a as ih => simp [traceCosts, ih]

/-- The history row of a component after typing `p`, and its sum. -/
def histOf (A : Arith) (hlen : Nat) (cs : List A.C) : List A.C :=
  lastN hlen (List.replicate hlen A.one ++ cs)

/-- An entry of the table holds component states standing for `p`, and the history of `p`. -/
structure Holds (live : σ → Prop) (ok : σ → Int → Prop) (den : σ → Int → List Int → Prop)
    (models : List σ) (st : HubState A.C) (p : List Int) : Prop where
  den : ∀ (j : Nat) m, models[j]? = some m → live m ∧ ok m (st.modelState j) ∧ den m (st.modelState j) p

/-- The history rows of an entry are those of `p`. -/
def HistIs (cost : σ → List Int → Int → A.C) (hlen : Nat) (models : List σ) (st : HubState A.C) (p : List Int) : Prop :=
  ∀ (j : Nat) m, models[j]? = some m →
    st.hist[j]? = some (histOf A hlen (traceCosts (cost m) [] p)) ∧
    st.histSum[j]? = some (if p = [] then A.one else rowSum A (histOf A hlen (traceCosts (cost m) [] p)))

/-- `lab i` is the text the entry `i` stands for (`pend`: the entry whose history is not set yet). -/
structure Labels (live : σ → Prop) (ok : σ → Int → Prop) (den : σ → Int → List Int → Prop)
    (cost : σ → List Int → Int → A.C) (pend : Option Nat) (h : Hub A σ) (lab : Nat → List Int) : Prop where
  zero : lab 0 = []
  holds : ∀ (i : Nat) (st : HubState A.C), h.states[i]? = some st → Holds live ok den h.models st (lab i)
  edge : ∀ (i : Nat) (st : HubState A.C), h.states[i]? = some st → ∀ c k, (c, k) ∈ st.nexts → lab k = lab i ++ [c]
  hist : 0 < h.hlen → ∀ (i : Nat) (st : HubState A.C), h.states[i]? = some st → pend ≠ some i →
    HistIs cost h.hlen h.models st (lab i)
  prev : ∀ s, pend = some s → ∀ st : HubState A.C, h.states[s]? = some st → 0 ≤ st.prev

theorem Labels.setModels (ht : env.toLMOps.Traces live ok den ans cost) {p : Option Nat} {h : Hub A σ}
    {lab : Nat → List Int} (hl : Labels live ok den cost p h lab) {ms : List σ}
    (hm : TouchesU (env.guard live ok).toLMOps h.models ms) :
    Labels live ok den cost p { h with models := ms } lab := by
  refine ⟨hl.zero, ?_, hl.edge, ?_, hl.prev⟩
  · intro i st hst
    refine ⟨fun j m hj => ?_⟩
    obtain ⟨m0, e1, e2⟩ := Pointwise.get' hm hj
    obtain ⟨a1, a2, a3⟩ := (hl.holds i st hst).den j m0 e1
    obtain ⟨b1, b2, b3⟩ := ht.touch e2 a1
    exact ⟨b1, b2 _ a2, b3.states _ _ a2 a3⟩
  · intro hp i st hst hne j m hj
    obtain ⟨m0, e1, e2⟩ := Pointwise.get' hm hj
    have hlive := ((hl.holds i st hst).den j m0 e1).1
    rw [(ht.touch e2 hlive).2.2.costs]
    exact hl.hist hp i st hst hne j m0 e1

theorem histOf_nil (A : Arith) (n : Nat) : histOf A n [] = List.replicate n A.one := by
  simp [histOf, lastN]

theorem histIs_init (cost : σ → List Int → Int → A.C) {hlen : Nat} (hp : 0 < hlen) (models : List σ) {st : HubState A.C}
    (h1 : st.hist = (initHist A models.length hlen).1) (h2 : st.histSum = (initHist A models.length hlen).2) :
    HistIs cost hlen models st [] := by
  intro j m hm
  have hj := lt_of_getElem?_eq_some hm
  simp [h1, h2, initHist, hp, hj, traceCosts, histOf_nil]

/-- The labels with that of `k` changed. -/
def relabel (lab : Nat → List Int) (k : Nat) (p : List Int) : Nat → List Int := fun i => if i = k then p else lab i

theorem relabel_self (lab : Nat → List Int) (k : Nat) (p : List Int) : relabel lab k p k = p := if_pos rfl

theorem relabel_ne {lab : Nat → List Int} {k i : Nat} {p : List Int} (h : i ≠ k) : relabel lab k p i = lab i := if_neg h

/-- A new entry. -/
theorem created_labels (hf : env.Fair) (ht : env.toLMOps.Traces live ok den ans cost) {h : Hub A σ} (hi : Inv h)
    (hlk : Linked h) {lab : Nat → List Int} (hl : Labels live ok den cost none h lab) {s : Nat} {st : HubState A.C}
    (hst : h.states[s]? = some st) {c : Int} (hc : 0 ≤ c) (hn : HubState.lookup st.nexts c = none)
    (hg : (createdFrom (env.guard live ok) h s st c).selfRecycled = false) :
    Labels live ok den cost (some (victim h)) (createdFrom (env.guard live ok) h s st c)
      (relabel lab (victim h) (lab s ++ [c])) := by
  classical
  have hfg := hf.guard (live := live) (ok := ok)
  have hto := nextAll_touches (env.guard live ok).toLMOps st c 0 h.models
  have hi' := hi.setModels hto.length_eq.symm
  have hl' := hl.setModels ht hto.toU
  have hg0 : h.selfRecycled = false ∧ victim h ≠ s := by
    simp only [createdFrom, created, Bool.or_eq_false_iff, beq_eq_false_iff_ne] at hg
    exact hg
  have hv0 : victim h ≠ 0 := by have := victim_pos hi; omega
  have hnl : ¬ VictimLoop { h with models := (nextAll (env.guard live ok).toLMOps st c 0 h.models).2 } := by
    rintro ⟨_, vst, hv, hmem⟩
    obtain ⟨c0, h0⟩ := mem_targets.1 hmem
    exact (hlk hg0.1 _ vst hv c0 _ h0).1 rfl
  obtain ⟨vst, v1, v2, v3, v4, v5, v6, v7, v8⟩ :=
    created_new (env := env.guard live ok) (ms := (nextAll (env.guard live ok).toLMOps st c 0 h.models).1) hfg hi' hst hn
  have v1 : (createdFrom (env.guard live ok) h s st c).states[victim h]? = some vst := v1
  have hmod : (createdFrom (env.guard live ok) h s st c).models = (nextAll (env.guard live ok).toLMOps st c 0 h.models).2 := rfl
  have hhl : (createdFrom (env.guard live ok) h s st c).hlen = h.hlen := rfl
  refine ⟨by rw [relabel_ne (fun e => hv0 e.symm)]; exact hl.zero, ?_, ?_, ?_, ?_⟩
  · intro i ist hist
    refine ⟨fun j m hj => ?_⟩
    by_cases hiv : i = victim h
    · subst hiv
      rw [v1] at hist; cases hist
      obtain ⟨m0, f1, f2, f3⟩ := nextAll_get (env.guard live ok).toLMOps st c 0 h.models (j := j) (m' := m) hj
      rw [Nat.zero_add] at f2 f3
      obtain ⟨a1, a2, a3⟩ := (hl.holds s st hst).den j m0 f1
      have hms : vst.modelState j = ((env.guard live ok).next m0 (st.modelState j) c).1 := by
        simp only [HubState.modelState, v3, f3]
      have hgd : (env.guard live ok).next m0 (st.modelState j) c = env.next m0 (st.modelState j) c := by
        simp only [Env.guard, LMOps.guard]; rw [if_pos ⟨a1, a2⟩]
      rw [relabel_self, hms, f2, hgd]
      exact ⟨ht.closed.live_next _ _ _ a1 a2, ht.closed.next _ _ _ a1 a2, ht.next _ _ _ _ a1 a2 a3 hc⟩
    · rw [relabel_ne hiv]
      obtain ⟨ost, host⟩ := exists_getElem?_of_lt (slot_lt (h := { h with models := (nextAll (env.guard live ok).toLMOps st c 0 h.models).2 }) hiv (lt_of_getElem?_eq_some hist))
      obtain ⟨st', e1, _, e3, _⟩ := created_other (env := env.guard live ok)
        (ms := (nextAll (env.guard live ok).toLMOps st c 0 h.models).1) hfg hi' hst hn (i := i) hiv host
      have e1 : (createdFrom (env.guard live ok) h s st c).states[i]? = some st' := e1
      rw [hist] at e1; cases e1
      have hm' : (nextAll (env.guard live ok).toLMOps st c 0 h.models).2[j]? = some m := hj
      obtain ⟨a1, a2, a3⟩ := (hl'.holds i ost host).den j m hm'
      unfold kept at e3
      split at e3
      · next hw =>
        have : ist.modelState j = env.start m := by
          simp only [HubState.modelState, e3, startState, HubState.mk', List.getElem?_map, hm', Option.map_some]
          rfl
        rw [this, hw.1, hl.zero]
        exact ⟨a1, ht.closed.start m a1, ht.start m a1⟩
      · have : ist.modelState j = ost.modelState j := by simp [HubState.modelState, e3]
        rw [this]
        exact ⟨a1, a2, a3⟩
  · intro i ist hist c' k hck
    rcases created_edge (env := env.guard live ok) hfg hi' hst hn hist hck with ⟨rfl, rfl, hkv⟩ | h'
    · have hkv : k = victim h := hkv
      subst hkv
      rw [relabel_self, relabel_ne (fun e => hg0.2 e.symm)]
    · obtain ⟨ost, host, heo, hiv, hkv, hns⟩ := h'
      have hiv : i ≠ victim h := hiv
      have hkv : k ≠ victim h := hkv
      rw [relabel_ne hiv, relabel_ne hkv]
      exact hl.edge i ost host c' k heo
  · intro hp i ist hist hne
    have hiv : i ≠ victim h := fun e => hne (by rw [e])
    rw [relabel_ne hiv]
    obtain ⟨ost, host⟩ := exists_getElem?_of_lt (slot_lt (h := { h with models := (nextAll (env.guard live ok).toLMOps st c 0 h.models).2 }) hiv (lt_of_getElem?_eq_some hist))
    obtain ⟨st', e1, _, _, e4, e5, _⟩ := created_other (env := env.guard live ok)
      (ms := (nextAll (env.guard live ok).toLMOps st c 0 h.models).1) hfg hi' hst hn (i := i) hiv host
    have e1 : (createdFrom (env.guard live ok) h s st c).states[i]? = some st' := e1
    rw [hist] at e1; cases e1
    have h0 := hl'.hist hp i ost host (by simp)
    unfold kept at e4 e5
    split at e4
    · next hw =>
      rw [if_pos hw] at e5
      rw [hw.1, hl.zero]
      refine histIs_init cost hp _ ?_ ?_
      · rw [e4]; simp [startState, HubState.mk', hmod, hhl]
      · rw [e5]; simp [startState, HubState.mk', hmod, hhl]
    · next hw =>
      rw [if_neg hw] at e5
      intro j m hm
      have := h0 j m hm
      rw [e4, e5]
      exact this
  · intro v hv vst' hvst'
    cases hv
    rw [v1] at hvst'; cases hvst'
    rw [v7 hnl]; omega

theorem scoreAll_get (ops : LMOps A σ) (st : HubState A.C) (c : Int) (i : Nat) (ms : List σ)
    {j : Nat} {m : σ} (h : ms[j]? = some m) :
    (scoreAll ops st c i ms).1[j]? = some (ops.symScore m (st.modelState (i + j)) c).1 := by
  induction ms generalizing i j with
  | nil => simp at h
  | cons m' ms ih =>
    cases j with
    | zero =>
      simp only [List.getElem?_cons_zero, Option.some.injEq] at h
      subst h; rfl
    | succ j =>
      simp only [scoreAll, List.getElem?_cons_succ] at h ⊢
      rw [ih (i + 1) h, show i + 1 + j = i + (j + 1) by omega]

theorem histOf_snoc {n : Nat} (hn : 0 < n) (cs : List A.C) (x : A.C) :
    (histOf A n cs).tail ++ [x] = histOf A n (cs ++ [x]) := by
  have := lastN_push hn (l := List.replicate n A.one ++ cs) (by simp) x
  rw [List.append_assoc] at this
  exact this

/-- Recomputing a history. -/
theorem bayesed_labels (ht : env.toLMOps.Traces live ok den ans cost) {h : Hub A σ} (hi : Inv h)
    (hlk : Linked h) (hbk : BackLinked h) {lab : Nat → List Int} {s : Nat} {p : Option Nat} (hps : p = none ∨ p = some s)
    (hl : Labels live ok den cost p h lab) (hslt : s < h.states.length) (hg : h.selfRecycled = false) :
    Labels live ok den cost none (bayesed (env.guard live ok) h s) lab := by
  classical
  by_cases hz : h.hlen = 0
  · have hb : bayesed (env.guard live ok) h s = h := by simp [bayesed, hz]
    rw [hb]
    exact ⟨hl.zero, hl.holds, hl.edge, fun hp => by omega, fun s hs => by cases hs⟩
  have hpos : 0 < h.hlen := Nat.pos_of_ne_zero hz
  obtain ⟨st, hst⟩ := exists_getElem?_of_lt hslt
  by_cases hpv : st.prev < 0
  · have hb : bayesed (env.guard live ok) h s = h := by simp [bayesed, hst, hpv]
    have hp : p = none := by
      rcases hps with h0 | h0
      · exact h0
      · have := hl.prev s h0 st hst; omega
    rw [hb, ← hp]; exact hl
  · obtain ⟨pst, hpst, hedge⟩ := hbk hg s st hst st.prev.toNat (by omega)
    have hsym := ((hi.st _ pst hpst).edges st.sym s hedge).1
    have hlab := hl.edge _ pst hpst st.sym s hedge
    have hne : s ≠ st.prev.toNat := (hlk hg _ pst hpst st.sym s hedge).1
    have hto := scoreAll_touches (env.guard live ok).toLMOps pst st.sym 0 h.models
    have hl' := hl.setModels ht (ms := (scoreAll (env.guard live ok).toLMOps pst st.sym 0 h.models).2) hto.toU
    have hb : bayesed (env.guard live ok) h s = { h with
        states := h.states.set s { st with
          hist := List.zipWith (fun lm p => p.tail ++ [lm]) (scoreAll (env.guard live ok).toLMOps pst st.sym 0 h.models).1 pst.hist
          histSum := List.zipWith (fun lm p => p.tail.foldl A.times lm) (scoreAll (env.guard live ok).toLMOps pst st.sym 0 h.models).1 pst.hist }
        models := (scoreAll (env.guard live ok).toLMOps pst st.sym 0 h.models).2 } := by
      simp only [bayesed, hz, if_false, hst, hpv, hpst]
    rw [hb]
    have hget : ∀ {i : Nat} {ist : HubState A.C}, (h.states.set s { st with
          hist := List.zipWith (fun lm p => p.tail ++ [lm]) (scoreAll (env.guard live ok).toLMOps pst st.sym 0 h.models).1 pst.hist
          histSum := List.zipWith (fun lm p => p.tail.foldl A.times lm) (scoreAll (env.guard live ok).toLMOps pst st.sym 0 h.models).1 pst.hist })[i]? = some ist →
        (i = s ∧ ist = { st with
          hist := List.zipWith (fun lm p => p.tail ++ [lm]) (scoreAll (env.guard live ok).toLMOps pst st.sym 0 h.models).1 pst.hist
          histSum := List.zipWith (fun lm p => p.tail.foldl A.times lm) (scoreAll (env.guard live ok).toLMOps pst st.sym 0 h.models).1 pst.hist }) ∨
        (i ≠ s ∧ h.states[i]? = some ist) := by
      intro i ist hist
      simp only [List.getElem?_set] at hist
      split at hist
      · next e =>
        subst e
        injection hist with hist
        exact .inl ⟨rfl, hist.symm⟩
      · next e => exact .inr ⟨fun e' => e e'.symm, hist⟩
    refine ⟨hl.zero, ?_, ?_, ?_, fun s hs => by cases hs⟩
    · intro i ist hist
      rcases hget hist with ⟨rfl, rfl⟩ | ⟨_, hist⟩
      · exact ⟨(hl'.holds i st hst).den⟩
      · exact hl'.holds i ist hist
    · intro i ist hist c k hck
      rcases hget hist with ⟨rfl, rfl⟩ | ⟨_, hist⟩
      · exact hl.edge i st hst c k hck
      · exact hl.edge i ist hist c k hck
    · intro _ i ist hist _ j m hm
      rcases hget hist with ⟨rfl, rfl⟩ | ⟨hne', hist⟩
      · obtain ⟨m0, e1, e2⟩ := Pointwise.get' hto hm
        obtain ⟨a1, a2, a3⟩ := (hl.holds _ pst hpst).den j m0 e1
        have hsc := scoreAll_get (env.guard live ok).toLMOps pst st.sym 0 h.models e1
        have hgd : (env.guard live ok).symScore m0 (pst.modelState j) st.sym = env.symScore m0 (pst.modelState j) st.sym := by
          simp only [Env.guard, LMOps.guard]; rw [if_pos ⟨a1, a2⟩]
        rw [Nat.zero_add, hgd, ht.score _ _ _ _ a1 a2 a3 hsym] at hsc
        have hrow := (hl.hist hpos _ pst hpst (by
          rcases hps with h0 | h0
          · rw [h0]; simp
          · rw [h0]; simpa using hne) j m0 e1).1
        rw [(ht.touch e2.toU a1).2.2.costs, hlab, if_neg (by simp), traceCosts_append]
        simp only [List.nil_append, traceCosts, List.getElem?_zipWith, hsc, hrow]
        rw [histOf_snoc hpos]
        refine ⟨rfl, ?_⟩
        rw [← histOf_snoc hpos]
        simp [rowSum]
      · exact hl'.hist hpos i ist hist (by
          rcases hps with h0 | h0
          · rw [h0]; simp
          · rw [h0]; simpa using fun e => hne' e.symm) j m hm

/-- The whole table stands for texts. -/
structure Texts (live : σ → Prop) (ok : σ → Int → Prop) (den : σ → Int → List Int → Prop)
    (cost : σ → List Int → Int → A.C) (pend : Option Nat) (h : Hub A σ) : Prop where
  linked : Linked h
  back : BackLinked h
  labels : h.selfRecycled = false → ∃ lab, Labels live ok den cost pend h lab

theorem texts_preserved (hf : env.Fair) (ht : env.toLMOps.Traces live ok den ans cost) :
    Preserved (env.guard live ok) (Texts live ok den cost none) (fun k h => Texts live ok den cost (some k) h) where
  models h ms hi hd hto :=
    ⟨(linked_preserved (env := env.guard live ok) hf.guard).models h ms hi hd.linked hto,
      (backLinked_preserved (env := env.guard live ok) hf.guard).models h ms hi hd.back hto, fun hg => by
        obtain ⟨lab, hl⟩ := hd.labels hg
        exact ⟨lab, hl.setModels ht hto⟩⟩
  create h s st c hi hd hst hn hc :=
    ⟨(linked_preserved hf.guard).create h s st c hi hd.linked hst hn hc,
      (backLinked_preserved hf.guard).create h s st c hi hd.back hst hn hc, fun hg => by
        have hg0 : h.selfRecycled = false := by
          simp only [createdFrom, created, Bool.or_eq_false_iff] at hg; exact hg.1
        obtain ⟨lab, hl⟩ := hd.labels hg0
        exact ⟨_, created_labels hf ht hi hd.linked hl hst hc hn hg⟩⟩
  pend h s hi hlt hd :=
    ⟨hd.linked.frame (bayesed_frame _ h s), hd.back.frame (bayesed_frame _ h s), fun hg => by
        have hg0 : h.selfRecycled = false := by rw [← (bayesed_frame (env.guard live ok) h s).ghost]; exact hg
        obtain ⟨lab, hl⟩ := hd.labels hg0
        exact ⟨lab, bayesed_labels ht hi hd.linked hd.back (.inr rfl) hl hlt hg0⟩⟩
  hist h s hi hlt hd :=
    ⟨hd.linked.frame (bayesed_frame _ h s), hd.back.frame (bayesed_frame _ h s), fun hg => by
        have hg0 : h.selfRecycled = false := by rw [← (bayesed_frame (env.guard live ok) h s).ghost]; exact hg
        obtain ⟨lab, hl⟩ := hd.labels hg0
        exact ⟨lab, bayesed_labels ht hi hd.linked hd.back (.inl rfl) hl hlt hg0⟩⟩
  verify h s k st kst c hi hd hst hn hk hp hc := by
    classical
    refine ⟨(linked_preserved hf.guard).verify h s k st kst c hi hd.linked hst hn hk hp hc,
      (backLinked_preserved hf.guard).verify h s k st kst c hi hd.back hst hn hk hp hc, fun hg => ?_⟩
    obtain ⟨lab, hl⟩ := hd.labels hg
    have hto := nextAll_touches (env.guard live ok).toLMOps st c 0 h.models
    have hl' := hl.setModels ht (ms := (nextAll (env.guard live ok).toLMOps st c 0 h.models).2) hto.toU
    have hc0 := ((hi.st s st hst).edges c k (lookup_mem hn)).1
    have hlab := hl.edge s st hst c k (lookup_mem hn)
    refine ⟨lab, hl.zero, ?_, ?_, ?_, fun s hs => by cases hs⟩
    · intro i ist hist
      simp only [verified, List.getElem?_set] at hist
      split at hist
      · next e =>
        subst e
        rw [if_pos (lt_of_getElem?_eq_some hk)] at hist
        cases hist
        refine ⟨fun j m hj => ?_⟩
        obtain ⟨m0, f1, f2, f3⟩ := nextAll_get (env.guard live ok).toLMOps st c 0 h.models (j := j) (m' := m) hj
        rw [Nat.zero_add] at f2 f3
        obtain ⟨a1, a2, a3⟩ := (hl.holds s st hst).den j m0 f1
        have hgd : (env.guard live ok).next m0 (st.modelState j) c = env.next m0 (st.modelState j) c := by
          simp only [Env.guard, LMOps.guard]; rw [if_pos ⟨a1, a2⟩]
        simp only [HubState.modelState, f3]
        rw [f2]
        change live ((env.guard live ok).next m0 (st.modelState j) c).2 ∧ ok ((env.guard live ok).next m0 (st.modelState j) c).2 ((env.guard live ok).next m0 (st.modelState j) c).1 ∧ den ((env.guard live ok).next m0 (st.modelState j) c).2 ((env.guard live ok).next m0 (st.modelState j) c).1 _
        rw [hgd, hlab]
        exact ⟨ht.closed.live_next _ _ _ a1 a2, ht.closed.next _ _ _ a1 a2, ht.next _ _ _ _ a1 a2 a3 hc0⟩
      · exact hl'.holds i ist hist
    · intro i ist hist c' k' hck
      obtain ⟨st0, e1, e2, _⟩ := verified_frameish hk hist
      rw [e2] at hck
      exact hl.edge i st0 e1 c' k' hck
    · intro hpos i ist hist hne j m hm
      obtain ⟨st0, e1, _, _, _, e5, e6, _⟩ := verified_frameish hk hist
      rw [e5, e6]
      exact hl'.hist hpos i st0 e1 hne j m hm

theorem initial_labels (ht : env.toLMOps.Traces live ok den ans cost) {models : List σ} (hlv : ∀ m ∈ models, live m)
    (ws : List A.C) (hlen max : Nat) : Labels live ok den cost none (initial env models ws hlen max) (fun _ => []) := by
  have h0 : ∀ (i : Nat) st, (initial env models ws hlen max).states[i]? = some st →
      st = HubState.mk' A (models.map env.start) (-1) 0 hlen := by
    intro i st hst
    cases i with
    | zero => simp only [initial, List.getElem?_cons_zero, Option.some.injEq] at hst; exact hst.symm
    | succ i => simp [initial] at hst
  refine ⟨rfl, ?_, ?_, ?_, fun s hs => by cases hs⟩
  · intro i st hst
    rw [h0 i st hst]
    refine ⟨fun j m hj => ?_⟩
    have hj : models[j]? = some m := hj
    have hm := hlv m (List.mem_of_getElem? hj)
    simp only [HubState.modelState, HubState.mk', List.getElem?_map, hj, Option.map_some]
    exact ⟨hm, ht.closed.start m hm, ht.start m hm⟩
  · intro i st hst c k hck
    rw [h0 i st hst] at hck; simp [HubState.mk'] at hck
  · intro hp i st hst _
    rw [h0 i st hst]
    exact histIs_init cost hp _ (by simp [HubState.mk', initial]) (by simp [HubState.mk', initial])

theorem initial_texts (ht : env.toLMOps.Traces live ok den ans cost) {models : List σ} (hlv : ∀ m ∈ models, live m)
    (ws : List A.C) (hlen max : Nat) : Texts live ok den cost none (initial env models ws hlen max) := by
  have h0 : ∀ (i : Nat) st, (initial env models ws hlen max).states[i]? = some st →
      st = HubState.mk' A (models.map env.start) (-1) 0 hlen := by
    intro i st hst
    cases i with
    | zero => simp only [initial, List.getElem?_cons_zero, Option.some.injEq] at hst; exact hst.symm
    | succ i => simp [initial] at hst
  refine ⟨?_, ?_, fun _ => ⟨_, initial_labels ht hlv ws hlen max⟩⟩
  · intro _ i st hst c k hck
    rw [h0 i st hst] at hck; simp [HubState.mk'] at hck
  · intro _ i st hst p hp
    rw [h0 i st hst] at hp
    simp only [HubState.mk'] at hp
    omega

/-- One transition. -/
theorem NextOut.labels (hf : env.Fair) (ht : env.toLMOps.Traces live ok den ans cost) {h h' : Hub A σ}
    (hi : Inv h) (hd : Texts live ok den cost none h) {lab : Nat → List Int} (hl : Labels live ok den cost none h lab)
    {s c r : Int} (ho : NextOut (env.guard live ok) h s c r h') (hc : 0 ≤ c) (hg : h'.selfRecycled = false) :
    ∃ (k : Nat) (lab' : Nat → List Int), r = k ∧ k < h'.states.length ∧ Labels live ok den cost none h' lab' ∧
      lab' k = lab (source h s) ++ [c] := by
  cases ho with
  | bad hb => omega
  | cached _ st k hst hk =>
    obtain ⟨_, _, _, kst, hkst, _⟩ := (hi.st _ st hst).edges c k (lookup_mem hk)
    exact ⟨k, lab, rfl, lt_of_getElem?_eq_some hkst, hl, hl.edge _ st hst c k (lookup_mem hk)⟩
  | new _ st hst hk =>
    have hfr := bayesed_frame (env.guard live ok) (createdFrom (env.guard live ok) h (source h s) st c) (victim h)
    have hg1 : (createdFrom (env.guard live ok) h (source h s) st c).selfRecycled = false := by
      rw [← hfr.ghost]; exact hg
    have hl1 := created_labels hf ht hi hd.linked hl hst hc hk hg1
    have hi1 : Inv (createdFrom (env.guard live ok) h (source h s) st c) := createdFrom_inv hf.guard hi hst hc hk
    have hlt : victim h < (createdFrom (env.guard live ok) h (source h s) st c).states.length := by
      have hto := nextAll_touches (env.guard live ok).toLMOps st c 0 h.models
      obtain ⟨vst, v1, _⟩ := created_new (env := env.guard live ok)
        (ms := (nextAll (env.guard live ok).toLMOps st c 0 h.models).1) hf.guard (hi.setModels hto.length_eq.symm) hst hk
      exact lt_of_getElem?_eq_some v1
    refine ⟨victim h, _, rfl, by rw [hfr.len]; exact hlt, bayesed_labels ht hi1
      ((linked_preserved hf.guard).create h _ st c hi hd.linked hst hk hc)
      ((backLinked_preserved hf.guard).create h _ st c hi hd.back hst hk hc) (.inr rfl) hl1 hlt hg1, ?_⟩
    rw [relabel_self]

theorem contextLoop_labels (hf : env.Fair) (ht : env.toLMOps.Traces live ok den ans cost) {cs : List Int} :
    ∀ {h h' : Hub A σ} {s : Nat} {r : Int} {lab : Nat → List Int}, Inv h → Texts live ok den cost none h →
    Labels live ok den cost none h lab → s < h.states.length → (∀ c ∈ cs, 0 ≤ c) →
    contextLoop (env.guard live ok) h s cs = .ok (r, h') → h'.selfRecycled = false →
    ∃ (k : Nat) (lab' : Nat → List Int), r = k ∧ k < h'.states.length ∧ Labels live ok den cost none h' lab' ∧
      lab' k = lab s ++ cs := by
  induction cs with
  | nil =>
    intro h h' s r lab hi hd hl hs hcs he hg
    simp only [contextLoop, Except.ok.injEq, Prod.mk.injEq] at he
    obtain ⟨rfl, rfl⟩ := he
    exact ⟨s, lab, rfl, hs, hl, by simp⟩
  | cons c cs ih =>
    intro h h' s r lab hi hd hl hs hcs he hg
    simp only [contextLoop] at he
    obtain ⟨⟨r1, h1⟩, e1, he⟩ := bind_ok.1 he
    obtain ⟨g, o⟩ := nextState_good (hf.guard (live := live) (ok := ok)) hi e1
    have hsrc : source h (s : Int) = s := by
      have := source_valid (h := h) (s := (s : Int)) (by omega) (by omega)
      omega
    obtain ⟨r2, h2, e2, g2, _⟩ := contextLoop_ok (hf.guard (live := live) (ok := ok)) g.inv (if r1 < 0 then 0 else r1) cs
    have he' : contextLoop (env.guard live ok) h1 (if r1 < 0 then 0 else r1) cs = .ok (r, h') := he
    rw [he'] at e2; cases e2
    have hg1 : h1.selfRecycled = false := by
      cases hb : h1.selfRecycled with
      | false => rfl
      | true => rw [g2.const.ghost hb] at hg; cases hg
    obtain ⟨k, lab1, rfl, hk, hl1, hlab⟩ := o.labels hf ht hi hd hl (hcs c (by simp)) hg1
    rw [if_neg (by omega)] at he
    obtain ⟨k2, lab2, f1, f2, f3, f4⟩ := ih (h := h1) (s := k) g.inv (g.pres _ _ (texts_preserved hf ht) hd) hl1 hk
      (fun c' hc' => hcs c' (by simp [hc'])) he hg
    exact ⟨k2, lab2, f1, f2, f3, by rw [f4, hlab, hsrc]; simp⟩

/-- In every reachable hub, typing a text leads to an entry standing for it. -/
theorem context_holds (hf : env.Fair) (ht : env.toLMOps.Traces live ok den ans cost) {models : List σ}
    (hlv : ∀ m ∈ models, live m) {cfg : HubConfig A.C} {calls : List Call} {h h' : Hub A σ}
    (hr : Reach env models cfg calls h) {cs : List Int} (hcs : ∀ c ∈ cs, 0 ≤ c) {init r : Int} (hinit : init ≤ 0)
    (he : contextState env h cs init = .ok (r, h')) (hg : h'.selfRecycled = false) :
    Own live ok h' ∧ Good (env.guard live ok) (initial (env.guard live ok) models (cfgWeights cfg) (cfgHlen cfg) (cfgMax cfg)) h' ∧
    ∃ (k : Nat) (st : HubState A.C), r = k ∧ h'.states[k]? = some st ∧ Holds live ok den h'.models st cs ∧
      (0 < h'.hlen → HistIs cost h'.hlen h'.models st cs) := by
  have hc := ht.closed
  have ho := reach_own hf hc hlv hr
  have hr' := (reach_guard hf hc hlv cfg calls h).1 hr
  have hgood := reach_good hf.guard hr'
  have hz : (if init < 0 then 0 else init) = 0 := by split <;> omega
  simp only [contextState, hz, ho.contextLoop hf hc] at he
  obtain ⟨r2, h2, e2, g2, _⟩ := contextLoop_ok (hf.guard (live := live) (ok := ok)) ho.inv 0 cs
  rw [he] at e2; cases e2
  have hg0 : h.selfRecycled = false := by
    cases hb : h.selfRecycled with
    | false => rfl
    | true => rw [g2.const.ghost hb] at hg; cases hg
  have hd := hgood.pres _ _ (texts_preserved hf ht) (initial_texts (env := env) ht hlv (cfgWeights cfg) (cfgHlen cfg) (cfgMax cfg))
  obtain ⟨lab, hl⟩ := hd.labels hg0
  obtain ⟨k, lab', f1, f2, f3, f4⟩ := contextLoop_labels hf ht ho.inv hd hl (s := 0) ho.inv.pos hcs he hg
  obtain ⟨st, hst⟩ := exists_getElem?_of_lt f2
  rw [hl.zero, List.nil_append] at f4
  refine ⟨ho.good hf hc g2, hgood.trans g2, k, st, f1, hst, ?_, fun hp => ?_⟩
  · have := f3.holds k st hst; rw [f4] at this; exact this
  · have := f3.hist hp k st hst (by simp); rw [f4] at this; exact this

/-- The answer of the components at the states of an entry determines that of the loop over them. -/
theorem extractLoop_congr {st st' : HubState A.C} :
    ∀ (i : Nat) (ws : List A.C) (ms ms' : List σ) (acc : List (Str × A.C)) (norm : A.D), ms.length = ms'.length →
    (∀ (j : Nat) m m', ms[j]? = some m → ms'[j]? = some m' →
      (env.extract m (st.modelState (i + j))).1 = (env.extract m' (st'.modelState (i + j))).1) →
    (extractLoop env st i ws ms acc norm).map Prod.fst = (extractLoop env st' i ws ms' acc norm).map Prod.fst
  | _, [], _, _, _, _, _, _ => rfl
  | _, _ :: _, [], ms', _, _, hlen, _ => by
    cases ms' with
    | nil => rfl
    | cons _ _ => simp at hlen
  | i, w :: ws, m :: ms, ms', acc, norm, hlen, h => by
    cases ms' with
    | nil => simp at hlen
    | cons m' ms' =>
      have h0 := h 0 m m' rfl rfl
      simp only [Nat.add_zero] at h0
      have ih := fun acc norm => extractLoop_congr (st := st) (st' := st') (i + 1) ws ms ms' acc norm
        (by simpa using hlen) (fun j a b ha hb => by
          have := h (j + 1) a b (by simpa using ha) (by simpa using hb)
          rw [show i + 1 + j = i + (j + 1) by omega]; exact this)
      simp only [extractLoop]
      generalize env.extract m (st.modelState i) = x at h0 ⊢
      generalize env.extract m' (st'.modelState i) = y at h0 ⊢
      obtain ⟨x1, x2⟩ := x
      obtain ⟨y1, y2⟩ := y
      simp only at h0
      subst h0
      cases x1 with
      | none => rfl
      | some r =>
        simp only
        cases hm : mixResults A r w acc with
        | error f => rfl
        | ok mr =>
          simp only [ok_bind]
          have := ih mr.2 (A.dadd norm mr.1)
          generalize extractLoop env st (i + 1) ws ms mr.2 (A.dadd norm mr.1) = a at this ⊢
          generalize extractLoop env st' (i + 1) ws ms' mr.2 (A.dadd norm mr.1) = b at this ⊢
          cases a with
          | error f =>
            cases b with
            | error g =>
              simp only [Except.map, Except.error.injEq] at this
              rw [this]; rfl
            | ok b => cases this
          | ok a =>
            cases b with
            | error g => cases this
            | ok b =>
              simp only [Except.map, Except.ok.injEq] at this
              change Except.ok a.1 = Except.ok b.1
              rw [this]

/-- The hub's answer at two entries (of one or of two hubs) standing for the same text. -/
theorem extract_holds (ht : env.toLMOps.Traces live ok den ans cost) {h1 h2 : Hub A σ} {k1 k2 : Nat}
    {st1 st2 : HubState A.C} {cs : List Int} (hs1 : h1.states[k1]? = some st1) (hs2 : h2.states[k2]? = some st2)
    (hi1 : Inv h1) (hi2 : Inv h2)
    (hw : h1.weights = h2.weights) (hh : h1.hlen = h2.hlen)
    (ha : h1.models.map ans = h2.models.map ans) (hco : h1.models.map cost = h2.models.map cost)
    (hl1 : Holds live ok den h1.models st1 cs) (hl2 : Holds live ok den h2.models st2 cs)
    (hi1' : 0 < h1.hlen → HistIs cost h1.hlen h1.models st1 cs)
    (hi2' : 0 < h2.hlen → HistIs cost h2.hlen h2.models st2 cs) :
    (extractLMScores env h1 k1).map Prod.fst = (extractLMScores env h2 k2).map Prod.fst := by
  have hlen : h1.models.length = h2.models.length := by
    have := congrArg List.length ha; simpa using this
  have hans : ∀ (j : Nat) m m', h1.models[j]? = some m → h2.models[j]? = some m' →
      (env.extract m (st1.modelState j)).1 = (env.extract m' (st2.modelState j)).1 := by
    intro j m m' hm hm'
    obtain ⟨a1, a2, a3⟩ := hl1.den j m hm
    obtain ⟨b1, b2, b3⟩ := hl2.den j m' hm'
    rw [ht.extract _ _ _ a1 a2 a3, ht.extract _ _ _ b1 b2 b3]
    have := congrArg (fun l => l[j]?) ha
    simp only [List.getElem?_map, hm, hm', Option.map_some, Option.some.injEq] at this
    rw [this]
  have hv1 : h1.valid k1 = true := by
    have := lt_of_getElem?_eq_some hs1
    simp only [Hub.valid, Bool.and_eq_true, decide_eq_true_eq]; omega
  have hv2 : h2.valid k2 = true := by
    have := lt_of_getElem?_eq_some hs2
    simp only [Hub.valid, Bool.and_eq_true, decide_eq_true_eq]; omega
  simp only [extractLMScores, hv1, hv2, Bool.not_true, Bool.false_eq_true, if_false, Int.toNat_natCast, hs1, hs2, ← hw]
  split
  · cases hm1 : h1.models with
    | nil =>
      have : h2.models = [] := List.length_eq_zero_iff.1 (by rw [← hlen, hm1]; rfl)
      rw [this]
    | cons m1 ms1 =>
      cases hm2 : h2.models with
      | nil => rw [hm1, hm2] at hlen; simp at hlen
      | cons m2 ms2 =>
        have := hans 0 m1 m2 (by rw [hm1]; rfl) (by rw [hm2]; rfl)
        simp only [Except.map, this]
  · have hmix : getMixtureWeights h1 k1 true = getMixtureWeights h2 k2 true := by
      simp only [getMixtureWeights, hv1, hv2, Int.toNat_natCast, hs1, hs2, hw, hh]
      by_cases hz : h2.hlen = 0
      · simp [hz]
      · have hsum : st1.histSum = st2.histSum := by
          refine List.ext_getElem? fun j => ?_
          by_cases hj : j < h1.models.length
          · obtain ⟨m, hm⟩ := exists_getElem?_of_lt hj
            obtain ⟨m', hm'⟩ := exists_getElem?_of_lt (l := h2.models) (i := j) (by omega)
            rw [(hi1' (by omega) j m hm).2, (hi2' (by omega) j m' hm').2, hh]
            have := congrArg (fun l => l[j]?) hco
            simp only [List.getElem?_map, hm, hm', Option.map_some, Option.some.injEq] at this
            rw [this]
          · have l1 := ((hi1.st k1 st1 hs1).hist (by omega)).2.1
            have l2 := ((hi2.st k2 st2 hs2).hist (by omega)).2.1
            rw [List.getElem?_eq_none (by omega), List.getElem?_eq_none (by omega)]
        simp [hz, hsum]
    rw [hmix]
    cases getMixtureWeights h2 k2 true with
    | error f => rfl
    | ok ws =>
      simp only [ok_bind]
      have := extractLoop_congr (env := env) (st := st1) (st' := st2) 0 ws h1.models h2.models [] (A.ofInt 0) hlen
        (fun j m m' hm hm' => by rw [Nat.zero_add]; exact hans j m m' hm hm')
      generalize extractLoop env st1 0 ws h1.models [] (A.ofInt 0) = a at this ⊢
      generalize extractLoop env st2 0 ws h2.models [] (A.ofInt 0) = b at this ⊢
      cases a with
      | error f =>
        cases b with
        | error g =>
          simp only [Except.map, Except.error.injEq] at this
          rw [this]; rfl
        | ok b => cases this
      | ok a =>
        cases b with
        | error g => cases this
        | ok b =>
          obtain ⟨a1, a2⟩ := a
          obtain ⟨b1, b2⟩ := b
          simp only [Except.map, Except.ok.injEq] at this
          subst this
          cases a1 <;> rfl

end Mozolm.Hub
