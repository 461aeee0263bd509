import Verif.Hub.Tandem
import Verif.Hub.Path
import Verif.Server.HandlerLemmas

/-! # A hub and one of its components behind a hub of its own -/

namespace Mozolm.Hub

/-- whenever the first computation completes so does the second, with a related result -/
def Fwd {α β : Type} (Q : α → β → Prop) (x : Except Fault α) (y : Except Fault β) : Prop := ∀ a, x = .ok a → ∃ b, y = .ok b ∧ Q a b

theorem Fwd.ok {α β : Type} {Q : α → β → Prop} {a : α} {b : β} (h : Q a b) : Fwd Q (.ok a) (.ok b) := by
  intro a' e; cases e; exact ⟨b, rfl, h⟩

theorem Fwd.error {α β : Type} {Q : α → β → Prop} (f : Fault) (y : Except Fault β) : Fwd Q (.error f : Except Fault α) y := by
  intro a e; cases e

theorem Fwd.bind {α β γ δ : Type} {Q : α → β → Prop} {R : γ → δ → Prop} {x : Except Fault α} {y : Except Fault β} {f : α → Except Fault γ}
    {g : β → Except Fault δ} (h : Fwd Q x y) (hf : ∀ a b, Q a b → Fwd R (f a) (g b)) : Fwd R (x >>= f) (y >>= g) := by
  intro c hc
  obtain ⟨a, e1, e2⟩ := bind_ok.1 hc
  obtain ⟨b, e3, e4⟩ := h a e1
  obtain ⟨d, e5, e6⟩ := hf a b e4 c e2
  exact ⟨d, bind_ok.2 ⟨b, e3, e5⟩, e6⟩

variable {A : Arith} {σ : Type}

/-- `rel a b`: two components that differ only in what cannot be told from their answers; `like a b x y`: state `x` of the
one corresponds to state `y` of the other -/
structure LMOps.Mates (ops : LMOps A σ) (rel : σ → σ → Prop) (like : σ → σ → Int → Int → Prop) : Prop where
  start : ∀ {a b}, rel a b → like a b (ops.start a) (ops.start b)
  next : ∀ {a b x y} (c : Int), rel a b → like a b x y → 0 ≤ c → rel (ops.next a x c).2 (ops.next b y c).2 ∧
    like (ops.next a x c).2 (ops.next b y c).2 (ops.next a x c).1 (ops.next b y c).1 ∧
    ∀ u v, like a b u v → like (ops.next a x c).2 (ops.next b y c).2 u v
  extract : ∀ {a b x y}, rel a b → like a b x y → (ops.extract a x).1 = (ops.extract b y).1
  left : ∀ {a b x y}, rel a b → like a b x y → rel (ops.extract a x).2 b ∧ ∀ u v, like a b u v → like (ops.extract a x).2 b u v
  right : ∀ {a b x y}, rel a b → like a b x y → rel a (ops.extract b y).2 ∧ ∀ u v, like a b u v → like a (ops.extract b y).2 u v
  score : ∀ {a b x y} (c : Int), rel a b → like a b x y → rel (ops.symScore a x c).2 b ∧ ∀ u v, like a b u v → like (ops.symScore a x c).2 b u v
  update : ∀ {a b x y} (cs : List Int) (n : Int), rel a b → like a b x y → (ops.update a x cs n).1 = true ∧ (ops.update b y cs n).1 = true ∧
    rel (ops.update a x cs n).2 (ops.update b y cs n).2 ∧ ∀ u v, like a b u v → like (ops.update a x cs n).2 (ops.update b y cs n).2 u v

/-- entries of the two tables; component `j` of `n` -/
structure StShadow {C : Type} (L : Int → Int → Prop) (n j : Nat) (st st' : HubState C) : Prop where
  prev : st.prev = st'.prev
  nexts : st.nexts = st'.nexts
  sym : st.sym = st'.sym
  len : st.modelStates.length = n
  len' : st'.modelStates.length = 1
  at_ : L (st.modelState j) (st'.modelState 0)

/-- `m` is component `j` of `h`, and `m'` the only one of `g` -/
structure ShadowOf (rel : σ → σ → Prop) (like : σ → σ → Int → Int → Prop) (n j : Nat) (m m' : σ) (h g : Hub A σ) : Prop where
  here : h.models[j]? = some m
  only : g.models = [m']
  rel : rel m m'
  states : Pointwise (StShadow (like m m') n j) h.states g.states
  last : h.last = g.last
  max : h.max = g.max
  len : h.models.length = n
  hlen : g.hlen = 0
  weights : g.weights.length = 1
  weighed : j < h.weights.length

def Shadow (rel : σ → σ → Prop) (like : σ → σ → Int → Int → Prop) (n j : Nat) (h g : Hub A σ) : Prop := ∃ m m', ShadowOf rel like n j m m' h g

section
variable {env : Env A σ} {rel : σ → σ → Prop} {like : σ → σ → Int → Int → Prop} {n j : Nat} {h g : Hub A σ} {m m' : σ}

theorem StShadow.mono {C : Type} {L L' : Int → Int → Prop} (hL : ∀ u v, L u v → L' u v) {st st' : HubState C} (hs : StShadow L n j st st') :
    StShadow L' n j st st' := ⟨hs.prev, hs.nexts, hs.sym, hs.len, hs.len', hL _ _ hs.at_⟩

theorem StShadow.nextState {C : Type} {L : Int → Int → Prop} {st st' : HubState C} (hs : StShadow L n j st st') (c : Int) :
    st.nextState c = st'.nextState c := by
  unfold HubState.nextState; rw [hs.nexts]

theorem StShadow.addNext {C : Type} {L : Int → Int → Prop} {st st' : HubState C} (hs : StShadow L n j st st') (c : Int) (i : Nat) :
    StShadow L n j (st.addNextState c i) (st'.addNextState c i) := by
  unfold HubState.addNextState
  rw [hs.nexts]
  cases HubState.lookup st'.nexts c with
  | some _ => exact hs
  | none => exact ⟨hs.prev, rfl, hs.sym, hs.len, hs.len', hs.at_⟩

theorem StShadow.resetPrev {C : Type} {L : Int → Int → Prop} {st st' : HubState C} (hs : StShadow L n j st st') :
    StShadow L n j st.resetPrev st'.resetPrev := ⟨rfl, hs.nexts, hs.sym, hs.len, hs.len', hs.at_⟩

theorem modelState_get {C : Type} {st : HubState C} {i : Nat} {x : Int} (h : st.modelStates[i]? = some x) : st.modelState i = x := by
  unfold HubState.modelState; rw [h]

theorem StShadow.mk' {L : Int → Int → Prop} {ms ms' : List Int} (hn : ms.length = n) {x y : Int} (hx : ms[j]? = some x) (hy : ms' = [y]) (hL : L x y)
    (prev sym : Int) (hl hl' : Nat) : StShadow L n j (HubState.mk' A ms prev sym hl) (HubState.mk' A ms' prev sym hl') := by
  subst hy
  exact ⟨rfl, rfl, rfl, hn, rfl, by rw [modelState_get (i := j) (x := x) hx, modelState_get (i := 0) (x := y) rfl]; exact hL⟩

theorem nextAll_snd (ops : LMOps A σ) (st : HubState A.C) (c : Int) (ms : List σ) : ∀ (i : Nat) {j : Nat} {m : σ}, ms[j]? = some m →
    (nextAll ops st c i ms).2[j]? = some (ops.next m (st.modelState (i + j)) c).2 := by
  induction ms with
  | nil => intro i j m h; simp at h
  | cons m0 ms ih =>
    intro i j m h
    cases j with
    | zero => cases h; rfl
    | succ j =>
      have := ih (i + 1) (j := j) h
      simp only [nextAll, List.getElem?_cons_succ]
      rw [this, Nat.add_assoc, Nat.add_comm 1 j]

theorem nextAll_snd_length (ops : LMOps A σ) (st : HubState A.C) (c : Int) (ms : List σ) : ∀ (i : Nat), (nextAll ops st c i ms).2.length = ms.length := by
  induction ms with
  | nil => intro i; rfl
  | cons m ms ih => intro i; simp [nextAll, ih]

theorem scoreAll_snd (ops : LMOps A σ) (st : HubState A.C) (c : Int) (ms : List σ) : ∀ (i : Nat) {j : Nat} {m : σ}, ms[j]? = some m →
    (scoreAll ops st c i ms).2[j]? = some (ops.symScore m (st.modelState (i + j)) c).2 := by
  induction ms with
  | nil => intro i j m h; simp at h
  | cons m0 ms ih =>
    intro i j m h
    cases j with
    | zero => cases h; rfl
    | succ j =>
      have := ih (i + 1) (j := j) h
      simp only [scoreAll, List.getElem?_cons_succ]
      rw [this, Nat.add_assoc, Nat.add_comm 1 j]

theorem scoreAll_snd_length (ops : LMOps A σ) (st : HubState A.C) (c : Int) (ms : List σ) : ∀ (i : Nat), (scoreAll ops st c i ms).2.length = ms.length := by
  induction ms with
  | nil => intro i; rfl
  | cons m ms ih => intro i; simp [scoreAll, ih]

theorem ShadowOf.len_states (hs : ShadowOf rel like n j m m' h g) : h.states.length = g.states.length := hs.states.length_eq

theorem ShadowOf.valid (hs : ShadowOf rel like n j m m' h g) (s : Int) : h.valid s = g.valid s := by
  unfold Hub.valid; rw [hs.len_states]

theorem Shadow.valid (hs : Shadow rel like n j h g) (s : Int) : h.valid s = g.valid s := by
  obtain ⟨_, _, hs⟩ := hs; exact hs.valid s

/-- new models, as after calls of both -/
theorem ShadowOf.moved (hs : ShadowOf rel like n j m m' h g) {ms : List σ} {m1 m1' : σ} (h1 : ms[j]? = some m1) (hl : ms.length = h.models.length)
    (hr : rel m1 m1') (hk : ∀ u v, like m m' u v → like m1 m1' u v) :
    ShadowOf rel like n j m1 m1' { h with models := ms } { g with models := [m1'] } :=
  ⟨h1, rfl, hr, hs.states.mono fun _ _ x => x.mono hk, hs.last, hs.max, hl.trans hs.len, hs.hlen, hs.weights, hs.weighed⟩

theorem ShadowOf.setStates (hs : ShadowOf rel like n j m m' h g) {ss ss' : List (HubState A.C)} (hp : Pointwise (StShadow (like m m') n j) ss ss') :
    ShadowOf rel like n j m m' { h with states := ss } { g with states := ss' } :=
  ⟨hs.here, hs.only, hs.rel, hp, hs.last, hs.max, hs.len, hs.hlen, hs.weights, hs.weighed⟩

theorem set_same {α : Type} {l : List α} {i : Nat} {a : α} (h : l[i]? = some a) : l.set i a = l := by
  obtain ⟨hi, rfl⟩ := List.getElem?_eq_some_iff.1 h
  exact List.set_getElem_self hi

/-- the new history of a state of `h` changes nothing for `g`, which has none -/
theorem ShadowOf.history (hp : env.toLMOps.Mates rel like) (hs : ShadowOf rel like n j m m' h g) (s : Nat) {h1 : Hub A σ}
    (he : updateBayesianHistory env h s = .ok h1) : ∃ m1, ShadowOf rel like n j m1 m' h1 g := by
  unfold updateBayesianHistory at he
  split at he
  · cases he; exact ⟨m, hs⟩
  · split at he
    · cases he
    · next st hst =>
      split at he
      · cases he; exact ⟨m, hs⟩
      · split at he
        · cases he
        · next pst hpst =>
          simp only at he
          split at he
          · cases he
          · next hist histSum _ =>
            cases he
            have h1 := Ppm.Pointwise.opt hs.states st.prev.toNat
            rw [hpst] at h1
            generalize g.states[st.prev.toNat]? = y at h1
            cases h1 with
            | @some _ pst' h1 =>
              obtain ⟨s1, s2⟩ := hp.score st.sym hs.rel h1.at_
              have hg := scoreAll_snd env.toLMOps pst st.sym h.models 0 hs.here
              rw [Nat.zero_add] at hg
              refine ⟨_, hg, hs.only, s1, ?_, hs.last, hs.max, by rw [← hs.len]; exact scoreAll_snd_length _ _ _ _ _, hs.hlen, hs.weights, hs.weighed⟩
              have h2 := Ppm.Pointwise.opt hs.states s
              rw [hst] at h2
              have hps := hs.states.mono (S := StShadow (like (env.symScore m (pst.modelState j) st.sym).2 m') n j) fun _ _ x => x.mono s2
              cases hg2 : g.states[s]? with
              | none => rw [hg2] at h2; cases h2
              | some st' =>
                rw [hg2] at h2
                cases h2 with
                | some h2 =>
                  have := Ppm.Pointwise.set hps (a := { st with hist := hist, histSum := histSum }) (b := st')
                    ⟨h2.prev, h2.nexts, h2.sym, h2.len, h2.len', s2 _ _ h2.at_⟩ s
                  rwa [set_same hg2] at this

theorem resetPrevs_fwd {L : Int → Int → Prop} (ks : List Nat) : ∀ {ss ss' : List (HubState A.C)}, Pointwise (StShadow L n j) ss ss' →
    Fwd (Pointwise (StShadow L n j)) (resetPrevs (A := A) ss ks) (resetPrevs (A := A) ss' ks) := by
  induction ks with
  | nil => intro ss ss' h; exact .ok h
  | cons k ks ih =>
    intro ss ss' h
    simp only [resetPrevs]
    have h1 := Ppm.Pointwise.opt h k
    generalize ss[k]? = x at h1
    generalize ss'[k]? = y at h1
    cases h1 with
    | none => exact .error _ _
    | some h1 => exact ih (Ppm.Pointwise.set h h1.resetPrev k)

theorem stUpdate_fwd {L : Int → Int → Prop} (hj : j < n) (oN : List (Int × Nat) → List (Int × Nat)) {st st' new new' : HubState A.C}
    (h1 : StShadow L n j st st') (h2 : StShadow L n j new new') :
    ∃ a b olds, st.updateHubState oN new = some (a, olds) ∧ st'.updateHubState oN new' = some (b, olds) ∧ StShadow L n j a b := by
  unfold HubState.updateHubState
  rw [if_neg (by rw [h1.len, h2.len]; simp), if_neg (by rw [h1.len', h2.len']; simp)]
  rw [h1.nexts]
  refine ⟨_, _, _, rfl, rfl, ⟨h2.prev, rfl, h2.sym, by simp [h1.len], by simp [h1.len'], ?_⟩⟩
  rw [modelState_get (i := j) (x := new.modelState j) (by simp [h1.len, hj]), modelState_get (i := 0) (x := new'.modelState 0) (by simp [h1.len'])]
  exact h2.at_

theorem ShadowOf.overwrite (hs : ShadowOf rel like n j m m' h g) (idx : Nat) {ms ms' : List Int} (hn : ms.length = n) {x y : Int} (hx : ms[j]? = some x)
    (hy : ms' = [y]) (hL : like m m' x y) (prev sym : Int) :
    Fwd (fun a b => ∃ a' b', a = some a' ∧ b = some b' ∧ ShadowOf rel like n j m m' a' b') (updateHubState env h idx ms prev sym) (updateHubState env g idx ms' prev sym) := by
  unfold updateHubState
  have h1 := Ppm.Pointwise.opt hs.states idx
  generalize h.states[idx]? = x at h1
  generalize g.states[idx]? = y at h1
  cases h1 with
  | none => exact .error _ _
  | @some st st' h1 =>
    simp only
    obtain ⟨a, b, olds, e1, e2, e3⟩ := stUpdate_fwd (by rw [← hs.len]; exact lt_of_getElem?_eq_some hs.here) env.orderN h1 (StShadow.mk' (A := A) hn hx hy hL prev sym h.hlen g.hlen)
    rw [e1, e2]
    exact (resetPrevs_fwd olds (Ppm.Pointwise.set hs.states e3 idx)).bind fun a b hab => .ok ⟨_, _, rfl, rfl, hs.setStates hab⟩

theorem ShadowOf.restart (hp : env.toLMOps.Mates rel like) (hs : ShadowOf rel like n j m m' h g) :
    Fwd (fun a b => ∃ a' b', a = some a' ∧ b = some b' ∧ ShadowOf rel like n j m m' a' b') (initializeStart env h) (initializeStart env g) := by
  unfold initializeStart
  refine hs.overwrite 0 (x := env.start m) (y := env.start m') (by simp [hs.len]) (by simp [hs.here]) (by simp [hs.only]) (hp.start hs.rel) _ _

theorem ShadowOf.finish (hp : env.toLMOps.Mates rel like) (hs : ShadowOf rel like n j m m' h g) (prev : Nat) (c : Int) (idx : Nat) :
    Fwd (fun a b => a.1 = b.1 ∧ Shadow rel like n j a.2 b.2) (finishNew env prev c h idx) (finishNew env prev c g idx) := by
  unfold finishNew
  have h1 := Ppm.Pointwise.opt hs.states prev
  generalize h.states[prev]? = x at h1
  generalize g.states[prev]? = y at h1
  cases h1 with
  | none => exact .error _ _
  | @some pst pst' h1 =>
    intro a ha
    obtain ⟨h2, e1, e2⟩ := bind_ok.1 ha
    cases e2
    have h3 : ShadowOf rel like n j m m'
        { h with last := idx, states := h.states.set prev (pst.addNextState c idx), selfRecycled := h.selfRecycled || idx == prev }
        { g with last := idx, states := g.states.set prev (pst'.addNextState c idx), selfRecycled := g.selfRecycled || idx == prev } :=
      ⟨hs.here, hs.only, hs.rel, Ppm.Pointwise.set hs.states (h1.addNext c idx) prev, rfl, hs.max, hs.len, hs.hlen, hs.weights, hs.weighed⟩
    obtain ⟨m1, h4⟩ := h3.history hp idx e1
    have eg : ∀ g' : Hub A σ, g'.hlen = 0 → updateBayesianHistory env g' idx = .ok g' := by
      intro g' h0
      unfold updateBayesianHistory
      rw [if_pos h0]
    exact ⟨(some idx, _), bind_ok.2 ⟨_, eg _ hs.hlen, rfl⟩, rfl, m1, m', h4⟩

theorem ShadowOf.recycle (hp : env.toLMOps.Mates rel like) (hs : ShadowOf rel like n j m m' h g) {ms ms' : List Int} (hn : ms.length = n) {x y : Int}
    (hx : ms[j]? = some x) (hy : ms' = [y]) (hL : like m m' x y) (prev : Nat) (c : Int) (idx : Nat) :
    Fwd (fun a b => a.1 = b.1 ∧ Shadow rel like n j a.2 b.2) (recycleNew env ms prev c h idx) (recycleNew env ms' prev c g idx) := by
  unfold recycleNew
  refine (hs.overwrite idx hn hx hy hL prev c).bind fun a b hab => ?_
  obtain ⟨a', b', rfl, rfl, hab⟩ := hab
  exact hab.finish hp prev c idx

theorem ShadowOf.assign (hp : env.toLMOps.Mates rel like) (hs : ShadowOf rel like n j m m' h g) {ms ms' : List Int} (hn : ms.length = n) {x y : Int}
    (hx : ms[j]? = some x) (hy : ms' = [y]) (hL : like m m' x y) (prev : Nat) (c : Int) :
    Fwd (fun a b => a.1 = b.1 ∧ Shadow rel like n j a.2 b.2) (assignNew env h ms prev c) (assignNew env g ms' prev c) := by
  rw [assignNew_parts, assignNew_parts]
  have e1 := hs.max
  have e2 := hs.len_states
  have e3 := hs.last
  by_cases c1 : g.max ≤ g.states.length
  · rw [if_pos (by omega), if_pos c1]
    by_cases c2 : g.max ≤ g.last + 1
    · rw [if_pos (by omega), if_pos c2]
      refine (hs.restart hp).bind fun a b hab => ?_
      obtain ⟨a', b', rfl, rfl, hab⟩ := hab
      exact hab.recycle hp hn hx hy hL prev c 1
    · rw [if_neg (by omega), if_neg c2, e3]
      exact hs.recycle hp hn hx hy hL prev c (g.last + 1)
  · rw [if_neg (by omega), if_neg c1]
    have hst : StShadow (like m m') n j (HubState.mk' A ms prev c h.hlen) (HubState.mk' A ms' prev c g.hlen) := StShadow.mk' hn hx hy hL prev c _ _
    have := (hs.setStates (Ppm.Pointwise.append hs.states (.cons hst .nil))).finish hp prev c g.states.length
    rw [e2]
    exact this

theorem Shadow.next (hp : env.toLMOps.Mates rel like) (hs : Shadow rel like n j h g) (s c : Int) :
    Fwd (fun a b => a.1 = b.1 ∧ Shadow rel like n j a.2 b.2) (nextState env h s c) (nextState env g s c) := by
  obtain ⟨m, m', hs⟩ := hs
  unfold nextState
  simp only
  rw [hs.valid s]
  generalize (if g.valid s = true then s.toNat else 0) = i
  have h1 := Ppm.Pointwise.opt hs.states i
  generalize h.states[i]? = x at h1
  generalize g.states[i]? = y at h1
  cases h1 with
  | none => exact .error _ _
  | @some st st' h1 =>
    simp only
    rw [h1.nextState c]
    split
    · exact .ok ⟨rfl, m, m', hs⟩
    · next hc =>
      obtain ⟨n1, n2, n3⟩ := hp.next c hs.rel h1.at_ (by omega)
      have f1 := nextAll_fst env.toLMOps st c 0 h.models hs.here
      have f2 := nextAll_snd env.toLMOps st c h.models 0 hs.here
      rw [Nat.zero_add] at f1 f2
      have hs2 := hs.moved f2 (nextAll_snd_length _ _ _ _ _) n1 n3
      have h2 := hs2.assign hp (ms := (nextAll env.toLMOps st c 0 h.models).1) (by rw [nextAll_length, hs.len]) f1 rfl n2 i c
      have e : nextAll env.toLMOps st' c 0 g.models = ([(env.next m' (st'.modelState 0) c).1], [(env.next m' (st'.modelState 0) c).2]) := by
        rw [hs.only]; rfl
      rw [e]
      intro a ha
      split at ha
      · cases ha
      · next idx h3 he =>
        cases ha
        obtain ⟨⟨b1, b2⟩, k1, k2, k3⟩ := h2 _ he
        simp only at k1 k2 k3 ⊢
        subst k2
        exact ⟨_, by rw [k1], rfl, k3⟩
      · next h3 he =>
        cases ha
        obtain ⟨⟨b1, b2⟩, k1, k2, k3⟩ := h2 _ he
        simp only at k1 k2 k3 ⊢
        subst k2
        exact ⟨_, by rw [k1], rfl, k3⟩

theorem Shadow.context (hp : env.toLMOps.Mates rel like) (cs : List Int) : ∀ {h g : Hub A σ} (s : Int), Shadow rel like n j h g →
    Fwd (fun a b => a.1 = b.1 ∧ Shadow rel like n j a.2 b.2) (contextLoop env h s cs) (contextLoop env g s cs) := by
  induction cs with
  | nil => intro h g s hs; exact .ok ⟨rfl, hs⟩
  | cons c cs ih =>
    intro h g s hs
    simp only [contextLoop]
    refine (hs.next hp s c).bind fun a b hab => ?_
    rw [hab.1]
    exact ih _ hab.2

theorem Shadow.walk (hp : env.toLMOps.Mates rel like) (cs : List Int) : ∀ {h g : Hub A σ} (s : Int), Shadow rel like n j h g →
    Fwd (fun a b => a.1 = b.1 ∧ Shadow rel like n j a.2 b.2) (Server.walk env h s cs) (Server.walk env g s cs) := by
  induction cs with
  | nil => intro h g s hs; exact .ok ⟨rfl, hs⟩
  | cons c cs ih =>
    intro h g s hs
    simp only [Server.walk]
    refine (hs.next hp s c).bind fun a b hab => ?_
    rw [hab.1]
    exact ih _ hab.2

theorem Shadow.ensure (hp : env.toLMOps.Mates rel like) (cs : List Int) : ∀ {h g : Hub A σ} (s : Int), Shadow rel like n j h g →
    Fwd (Shadow rel like n j) (ensureStates env h s cs) (ensureStates env g s cs) := by
  induction cs with
  | nil => intro h g s hs; exact .ok hs
  | cons c cs ih =>
    intro h g s hs
    simp only [ensureStates]
    refine (hs.next hp s c).bind fun a b hab => ?_
    rw [hab.1]
    exact ih _ hab.2

theorem Shadow.each (hp : env.toLMOps.Mates rel like) (es : List (Int × Nat)) : ∀ {h h1 : Hub A σ}, Shadow rel like n j h g →
    historyEach env h es = .ok h1 → Shadow rel like n j h1 g := by
  induction es with
  | nil => intro h h1 hs he; cases he; exact hs
  | cons e es ih =>
    intro h h1 hs he
    obtain ⟨h2, e1, e2⟩ := bind_ok.1 he
    obtain ⟨m, m', hs⟩ := hs
    obtain ⟨m1, hs⟩ := hs.history hp e.2 e1
    exact ih ⟨m1, m', hs⟩ e2

/-- the second loop of an update, where all states exist -/
theorem Shadow.histories (hp : env.toLMOps.Mates rel like) (hf : env.Fair) (cs : List Int) : ∀ {h h1 : Hub A σ} {s t : Nat}, Inv h → Shadow rel like n j h g →
    IsPath h s cs t → historyLoop env h s cs = .ok h1 → Shadow rel like n j h1 g := by
  induction cs with
  | nil => intro h h1 s t _ hs _ he; cases he; exact hs
  | cons c cs ih =>
    intro h h1 s t hi hs ⟨st, k, p1, p2, p3⟩ he
    simp only [historyLoop] at he
    rw [if_neg (by omega), show h.states[(s : Int).toNat]? = some st from p1] at he
    simp only at he
    obtain ⟨h2, e1, e2⟩ := bind_ok.1 he
    have hes : ∀ e ∈ env.orderN st.nexts, e.2 < h.states.length := by
      intro e hm
      exact (hi.st _ st p1).target_lt ((hf.permN _).mem_iff.1 hm)
    obtain ⟨_, e3, g1, fr⟩ := historyEach_ok (env := env) hi (env.orderN st.nexts) hes
    rw [e1] at e3; cases e3
    have hp2 : IsPath h2 s (c :: cs) t := IsPath.keep fr.keep ⟨st, k, p1, p2, p3⟩
    obtain ⟨st2, k2, q1, q2, q3⟩ := hp2
    rw [nextState_cached q1 q2] at e2
    exact ih g1.inv (hs.each hp _ e1) q3 e2

/-! ## Scores -/

theorem extractLoop_at {st : HubState A.C} : ∀ (ws : List A.C) (ms : List σ) (i : Nat) (acc : List (Str × A.C)) (norm : A.D) r ms',
    extractLoop env st i ws ms acc norm = .ok (r, ms') → ms'.length = ms.length ∧ ∀ (j : Nat) (m : σ), ms[j]? = some m →
      ms'[j]? = some m ∨ ms'[j]? = some (env.extract m (st.modelState (i + j))).2
  | [], ms, i, acc, norm, r, ms', h => by
    simp only [extractLoop, Except.ok.injEq, Prod.mk.injEq] at h
    obtain ⟨_, rfl⟩ := h
    exact ⟨rfl, fun j m hm => .inl hm⟩
  | _ :: _, [], i, acc, norm, r, ms', h => by simp [extractLoop] at h
  | w :: ws, m0 :: ms, i, acc, norm, r, ms', h => by
    simp only [extractLoop] at h
    rcases he : env.extract m0 (st.modelState i) with ⟨y, m1⟩
    rw [he] at h
    cases y with
    | none =>
      simp only [Except.ok.injEq, Prod.mk.injEq] at h
      obtain ⟨_, rfl⟩ := h
      refine ⟨rfl, fun j m hm => ?_⟩
      cases j with
      | zero => cases hm; right; simp [he]
      | succ j => left; exact hm
    | some y =>
      simp only at h
      obtain ⟨mr, e1, e2⟩ := bind_ok.1 h
      obtain ⟨⟨r2, ms2⟩, e3, e4⟩ := bind_ok.1 e2
      simp only [Except.ok.injEq, Prod.mk.injEq] at e4
      obtain ⟨_, rfl⟩ := e4
      obtain ⟨i1, i2⟩ := extractLoop_at ws ms (i + 1) _ _ _ _ e3
      refine ⟨by simp [i1], fun j m hm => ?_⟩
      cases j with
      | zero => cases hm; right; simp [he]
      | succ j =>
        have := i2 j m hm
        rw [Nat.add_assoc, Nat.add_comm 1 j] at this
        exact this

theorem ShadowOf.touched (hs : ShadowOf rel like n j m m' h g) {ms : List σ} {m1 : σ} (h1 : ms[j]? = some m1) (hl : ms.length = h.models.length)
    (hr : rel m1 m') (hk : ∀ u v, like m m' u v → like m1 m' u v) : Shadow rel like n j { h with models := ms } g :=
  ⟨m1, m', h1, hs.only, hr, hs.states.mono fun _ _ x => x.mono hk, hs.last, hs.max, hl.trans hs.len, hs.hlen, hs.weights, hs.weighed⟩

/-- asking `h` for scores changes nothing for `g` -/
theorem Shadow.asked (hp : env.toLMOps.Mates rel like) (hs : Shadow rel like n j h g) (s : Int) {y : Option (LMScores A.D)} {h1 : Hub A σ}
    (he : extractLMScores env h s = .ok (y, h1)) : Shadow rel like n j h1 g := by
  unfold extractLMScores at he
  split at he
  · cases he; exact hs
  · split at he
    · cases he
    · next st hst =>
      obtain ⟨m, m', hs⟩ := hs
      have q1 := Ppm.Pointwise.opt hs.states s.toNat
      rw [hst] at q1
      generalize g.states[s.toNat]? = z at q1
      cases q1 with
      | @some _ st' q1 =>
        obtain ⟨l1, l2⟩ := hp.left hs.rel q1.at_
        split at he
        · next hw =>
          have hj : j = 0 := by have := hs.weighed; omega
          split at he
          · cases he
          · next m0 ms hms =>
            cases he
            have hm := hs.here
            rw [hms, hj] at hm
            cases hm
            subst hj
            exact hs.touched (ms := _ :: ms) rfl (by simp [hms]) l1 l2
        · obtain ⟨ws, e1, e2⟩ := bind_ok.1 he
          obtain ⟨⟨r, ms⟩, e3, e4⟩ := bind_ok.1 e2
          have e5 : h1 = { h with models := ms } := by
            cases r with
            | none => cases e4; rfl
            | some r => cases e4; rfl
          subst e5
          obtain ⟨i1, i2⟩ := extractLoop_at _ _ _ _ _ _ _ e3
          rcases i2 j m hs.here with h2 | h2
          · exact hs.touched h2 i1 hs.rel fun _ _ x => x
          · rw [Nat.zero_add] at h2
            exact hs.touched h2 i1 l1 l2

/-- what `g` says is what component `j` of `h` says -/
theorem Shadow.says (hp : env.toLMOps.Mates rel like) (hs : Shadow rel like n j h g) (s : Int) :
    (h.valid s = false → extractLMScores env g s = .ok (none, g)) ∧
    (∀ st, h.valid s = true → h.states[s.toNat]? = some st → ∃ m g1, h.models[j]? = some m ∧
      extractLMScores env g s = .ok ((env.extract m (st.modelState j)).1, g1) ∧ Shadow rel like n j h g1) := by
  constructor
  · intro hv
    unfold extractLMScores
    rw [← hs.valid, hv]
    rfl
  · intro st hv hst
    obtain ⟨m, m', hs⟩ := hs
    have h1 := Ppm.Pointwise.opt hs.states s.toNat
    rw [hst] at h1
    cases hg : g.states[s.toNat]? with
    | none => rw [hg] at h1; cases h1
    | some st' =>
      rw [hg] at h1
      cases h1 with
      | some h1 =>
        obtain ⟨l1, l2⟩ := hp.right hs.rel h1.at_
        refine ⟨m, { g with models := [(env.extract m' (st'.modelState 0)).2] }, hs.here, ?_, ⟨m, _, hs.here, rfl, l1,
          hs.states.mono fun _ _ x => x.mono l2, hs.last, hs.max, hs.len, hs.hlen, hs.weights, hs.weighed⟩⟩
        unfold extractLMScores
        rw [← hs.valid, hv, hg, hs.only]
        simp only [Bool.not_true, Bool.false_eq_true, if_false]
        rw [if_pos (by rw [hs.weights]; omega), hp.extract hs.rel h1.at_]

/-! ## Updates -/

theorem Shadow.verify (hp : env.toLMOps.Mates rel like) (cs : List Int) (hcs : ∀ c ∈ cs, 0 ≤ c) : ∀ {h g : Hub A σ} (s : Nat), Shadow rel like n j h g →
    Fwd (fun a b => a.1 = b.1 ∧ Shadow rel like n j a.2 b.2) (verifyLoop env h s cs) (verifyLoop env g s cs) := by
  induction cs with
  | nil => intro h g s hs; exact .ok ⟨rfl, hs⟩
  | cons c cs ih =>
    intro h g s hs
    obtain ⟨m, m', hs⟩ := hs
    simp only [verifyLoop]
    have h1 := Ppm.Pointwise.opt hs.states s
    generalize h.states[s]? = x at h1
    generalize g.states[s]? = y at h1
    cases h1 with
    | none => exact .error _ _
    | @some st st' h1 =>
      simp only
      rw [h1.nexts]
      cases HubState.lookup st'.nexts c with
      | none => exact .ok ⟨rfl, m, m', hs⟩
      | some i =>
        simp only
        obtain ⟨n1, n2, n3⟩ := hp.next c hs.rel h1.at_ (hcs c (by simp))
        have f1 := nextAll_fst env.toLMOps st c 0 h.models hs.here
        have f2 := nextAll_snd env.toLMOps st c h.models 0 hs.here
        rw [Nat.zero_add] at f1 f2
        have f3 : (nextAll env.toLMOps st c 0 h.models).1.length = n := by rw [nextAll_length, hs.len]
        have hs2 := hs.moved f2 (nextAll_snd_length _ _ _ _ _) n1 n3
        have e : nextAll env.toLMOps st' c 0 g.models = ([(env.next m' (st'.modelState 0) c).1], [(env.next m' (st'.modelState 0) c).2]) := by
          rw [hs.only]; rfl
        rw [e]
        have h2 := Ppm.Pointwise.opt hs2.states i
        simp only at h2
        generalize h.states[i]? = x at h2
        generalize g.states[i]? = y at h2
        cases h2 with
        | none => exact .error _ _
        | @some kst kst' h2 =>
          simp only
          have hv : Fwd (fun x y => x.1 = y.1 ∧ StShadow (like (env.next m (st.modelState j) c).2 (env.next m' (st'.modelState 0) c).2) n j x.2 y.2)
              (kst.verifyOrCorrect s c (nextAll env.toLMOps st c 0 h.models).1)
              (kst'.verifyOrCorrect s c [(env.next m' (st'.modelState 0) c).1]) := by
            unfold HubState.verifyOrCorrect
            have c1 : (kst.prev ≠ s ∨ kst.sym ≠ c) ↔ (kst'.prev ≠ s ∨ kst'.sym ≠ c) := by rw [h2.prev, h2.sym]
            by_cases q1 : kst'.prev ≠ s ∨ kst'.sym ≠ c
            · rw [if_pos (c1.2 q1), if_pos q1]; exact .ok ⟨rfl, h2⟩
            · rw [if_neg (fun x => q1 (c1.1 x)), if_neg q1, if_pos (by rw [f3, h2.len]), if_pos (by rw [h2.len']; simp)]
              refine .ok ⟨rfl, ⟨h2.prev, h2.nexts, h2.sym, ?_, ?_, ?_⟩⟩
              · simp [f3, h2.len]
              · simp [h2.len']
              · have g1 : ({ kst with modelStates := (nextAll env.toLMOps st c 0 h.models).1 ++
                    kst.modelStates.drop (nextAll env.toLMOps st c 0 h.models).1.length } : HubState A.C).modelState j = (env.next m (st.modelState j) c).1 :=
                  modelState_get (by
                    show ((nextAll env.toLMOps st c 0 h.models).1 ++ kst.modelStates.drop _)[j]? = _
                    rw [List.getElem?_append_left (lt_of_getElem?_eq_some f1)]; exact f1)
                exact g1 ▸ n2
          refine hv.bind fun a b hab => ?_
          have ht2 := hs2.setStates (Ppm.Pointwise.set hs2.states hab.2 i)
          rw [hab.1]
          split
          · exact ih (fun c' h' => hcs c' (by simp [h'])) i ⟨_, _, ht2⟩
          · exact .ok ⟨rfl, _, _, ht2⟩

theorem Shadow.update (hp : env.toLMOps.Mates rel like) (hf : env.Fair) (hi : Inv h) (hs : Shadow rel like n j h g) (s : Int) (cs : List Int)
    (hcs : ∀ c ∈ cs, 0 ≤ c) (count : Int)
    (hacc : ∀ ha hb, ensureStates env h s cs = .ok ha → (if 0 < ha.hlen then historyLoop env ha s cs else .ok ha) = .ok hb →
      ∀ st, hb.states[s.toNat]? = some st → ∀ b ms, updateLoop env st cs count 0 hb.weights hb.models = .ok (b, ms) → b = true)
    (hpath : ∀ ha, ensureStates env h s cs = .ok ha → ha.hlen = 0 ∨ ∀ k : Nat, s = k → k < ha.states.length → ∃ t, IsPath ha k cs t) :
    Fwd (fun a b => a.1 = b.1 ∧ Shadow rel like n j a.2 b.2) (updateLMCounts env h s cs count) (updateLMCounts env g s cs count) := by
  intro a ha
  unfold updateLMCounts at ha
  simp only at ha
  obtain ⟨h1, e1, ha⟩ := bind_ok.1 ha
  obtain ⟨h2, e2, ha⟩ := bind_ok.1 ha
  obtain ⟨g1, k1, hs1⟩ := hs.ensure hp cs s h1 e1
  obtain ⟨_, e1', gd⟩ := ensureStates_ok hf hi s cs
  rw [e1] at e1'; cases e1'
  have hs2 : Shadow rel like n j h2 g1 := by
    split at e2
    · next hpos =>
      by_cases hc0 : cs = []
      · subst hc0; cases e2; exact hs1
      · rcases hpath h1 e1 with h0 | hpath
        · omega
        · obtain ⟨c, cs', rfl⟩ := List.exists_cons_of_ne_nil hc0
          have e2' := e2
          simp only [historyLoop] at e2'
          split at e2'
          · cases e2'
          · next hneg =>
            split at e2'
            · cases e2'
            · next st hst =>
              obtain ⟨k, rfl⟩ : ∃ k : Nat, s = k := ⟨s.toNat, by omega⟩
              obtain ⟨t, ht⟩ := hpath k rfl (lt_of_getElem?_eq_some hst)
              exact hs1.histories hp hf _ gd.inv ht e2
    · cases e2; exact hs1
  have hg0 : g1.hlen = 0 := by obtain ⟨_, _, x⟩ := hs2; exact x.hlen
  have ug : updateLMCounts env g s cs count = (if g.valid s = true then
      match g1.states[s.toNat]? with
      | none => .error .ub
      | some st => do
        let r ← updateLoop env st cs count 0 g1.weights g1.models
        let g' := { g1 with models := r.2 }
        if r.1 then verifyLoop env g' s.toNat cs else .ok (false, g')
      else .ok (false, g1)) := by
    unfold updateLMCounts
    simp only [k1, ok_bind]
    rw [if_neg (by omega)]
    rfl
  rw [ug, ← hs.valid s]
  split at ha
  · next hv =>
    rw [if_pos hv]
    split at ha
    · cases ha
    · next st hst =>
      obtain ⟨⟨b, ms⟩, e3, ha⟩ := bind_ok.1 ha
      have hb := hacc h1 h2 e1 e2 st hst b ms e3
      subst hb
      obtain ⟨m, m', hs2⟩ := hs2
      have h3 := Ppm.Pointwise.opt hs2.states s.toNat
      rw [hst] at h3
      generalize g1.states[s.toNat]? = z at h3
      cases h3 with
      | @some _ st' h3 =>
        obtain ⟨u1, u2, u3, u4⟩ := hp.update cs count hs2.rel h3.at_
        obtain ⟨m1, f1, f2⟩ := (updateLoop_each _ _ _ _ e3).1 j m hs2.weighed hs2.here
        rw [Nat.zero_add] at f1
        have hm1 : m1 = (env.update m (st.modelState j) cs count).2 := by rw [f1]
        subst hm1
        have hlen : ms.length = h2.models.length := (updateLoop_touches _ _ _ _ _ e3).length_eq.symm
        have hs3 := hs2.moved f2 hlen u3 u4
        simp only [if_true] at ha
        have eg : updateLoop env st' cs count 0 g1.weights g1.models = .ok (true, [(env.update m' (st'.modelState 0) cs count).2]) := by
          obtain ⟨w, hw⟩ := List.length_eq_one_iff.1 hs2.weights
          rw [hw, hs2.only]
          simp only [updateLoop]
          rcases hx : env.update m' (st'.modelState 0) cs count with ⟨b, x⟩
          rw [hx] at u2
          simp only at u2
          subst u2
          rfl
        simp only [eg, ok_bind, if_true]
        exact Shadow.verify hp cs hcs s.toNat ⟨_, _, hs3⟩ a ha
  · next hv =>
    rw [if_neg hv]
    cases ha
    exact ⟨_, rfl, rfl, hs2⟩

end
end Mozolm.Hub
