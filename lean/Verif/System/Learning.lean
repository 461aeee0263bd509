import Verif.Hub.Points
import Verif.Hub.Ring
import Verif.Hub.Origin
import Verif.Ppm.MemoryUnique
import Verif.Ppm.Session
import Verif.System.Live
import Verif.Props.PpmMemory
import Verif.Props.SystemUpdate

/-!
# A PPM component that learns, inside the hub
-/

namespace Mozolm.System
open Mozolm.Hub
variable {encode : Int → Str} {fuel : Nat}

/-! ## The start states of the components never change -/

theorem start_next {A : Arith} (m : Component A) (s c : Int) (h : live encode fuel m) (hs : ok m s) :
    start (next encode fuel m s c).2 = start m := by
  cases m with
  | bigram m => rfl
  | ppm m =>
    obtain ⟨_, _, _, _, h⟩ := h
    obtain ⟨t, m', e, _, e2, _⟩ := ppm_next h encode c hs.1 hs.2
    simp only [next, e, settle, start, e2]
  | char m =>
    obtain ⟨s, rfl⟩ : ∃ n : Nat, s = n := ⟨_, toNat_eq hs.1⟩
    obtain ⟨t, e, _⟩ := CharLive.next h encode c (s := s) (by have := hs.2; omega)
    simp only [next, e, settle]
  | word m =>
    obtain ⟨m0, h⟩ := h
    obtain ⟨t, imp, e, _⟩ := h.next hs.1 c
    simp only [next, e, settle]; rfl
  | overflow => rfl
  | crashed f => rfl

theorem start_extract {A : Arith} (m : Component A) (s : Int) (h : live encode fuel m) (hs : ok m s) :
    start (extract encode fuel m s).2 = start m := by
  cases m with
  | bigram m =>
    obtain ⟨r, e, _⟩ := bigram_extract h A encode s
    simp only [extract, e, settle]
  | ppm m =>
    obtain ⟨_, _, _, _, h⟩ := h
    obtain ⟨r, m', e, _, e2, _⟩ := ppm_extract h hs.1 hs.2
    simp only [extract, e, settle, start, e2]
  | char m =>
    obtain ⟨s, rfl⟩ : ∃ n : Nat, s = n := ⟨_, toNat_eq hs.1⟩
    obtain ⟨t, e, _⟩ := CharLive.extract h (s := s) (by have := hs.2; omega)
    simp only [extract, e, settle]
  | word m =>
    obtain ⟨m0, h⟩ := h
    obtain ⟨t, imp, e, _⟩ := h.extract hs.1
    simp only [extract, e, settle]; rfl
  | overflow => rfl
  | crashed f => rfl

theorem start_score {A : Arith} (m : Component A) (s c : Int) (h : live encode fuel m) (hs : ok m s) :
    start (symScore encode fuel m s c).2 = start m := by
  cases m with
  | bigram m =>
    obtain ⟨r, e⟩ := bigram_score h A s c
    simp only [symScore, e, settle]
  | ppm m =>
    obtain ⟨_, _, _, _, h⟩ := h
    obtain ⟨r, m', e, _, e2⟩ := ppm_score h encode c hs.1 hs.2
    simp only [symScore, e, settle, start, e2]
  | char m =>
    simp only [symScore]
    cases NGram.symLMScore encode fuel m s c with
    | ok r => rfl
    | error f => simp [settle, start, NGram.startState]
  | word m =>
    obtain ⟨m0, h⟩ := h
    obtain ⟨t, imp, e, _⟩ := h.score hs.1 c
    simp only [symScore, e, settle]; rfl
  | overflow => rfl
  | crashed f => rfl

theorem start_update {A : Arith} (m : Component A) (s : Int) (cs : List Int) (n : Int) (h : live encode fuel m) (hs : ok m s) :
    start (update encode m s cs n).2 = start m := by
  cases m with
  | bigram m =>
    rcases bigram_update h s cs n with ⟨m', e, e1⟩ | ⟨f, e, e1⟩
    · simp only [update, e, start]
    · simp only [update, e]; split <;> rfl
  | ppm m =>
    obtain ⟨_, _, _, _, h⟩ := h
    obtain ⟨x, rfl⟩ : ∃ n : Nat, s = n := ⟨_, toNat_eq hs.1⟩
    obtain ⟨c', ord', l, hobs, _, heff⟩ := Ppm.updateLMCounts_effect (g := m.sig) h.laws h.wf h.orders h.labels encode
      (s := x) (by have := hs.2; show x < m.core.fst.states.length; omega) cs n
    obtain ⟨m', e1, e2, e3, e4⟩ := heff m rfl h.cache
    simp only [update, e1, settle, start, e3, hobs.start]; rfl
  | char m => rfl
  | word m => rfl
  | overflow => rfl
  | crashed f => rfl

/-- The start states of components that are only asked about their own states never change. -/
theorem guard_start {A : Arith} : ((ops A encode fuel).guard (live encode fuel) ok).StartStable where
  next m s c := by
    simp only [LMOps.guard]; split
    · next hk => exact start_next m s c hk.1 hk.2
    · rfl
  extract m s := by
    simp only [LMOps.guard]; split
    · next hk => exact start_extract m s hk.1 hk.2
    · rfl
  score m s c := by
    simp only [LMOps.guard]; split
    · next hk => exact start_score m s c hk.1 hk.2
    · rfl
  update m s cs n := by
    simp only [LMOps.guard]; split
    · next hk => exact start_update m s cs n hk.1 hk.2
    · rfl

/-! ## The component under the calls the hub makes of it -/

open Mozolm.Ppm (Keeps Memory)
variable {o : Ppm.Options XR} {K : Nat} {M : Memory} {ctxs : List (List Int)} {m0 m : Ppm.Model Arith.xr}

/-- The states of a component that holds a memory are its contexts. -/
theorem Keeps.name (h : Keeps encode K M ctxs m0 m) {s : Int} (hs : ok (.ppm m : Component Arith.xr) s) :
    ∃ (x : Nat) (c : List Int), s = x ∧ ctxs[x]? = some c := by
  obtain ⟨x, rfl⟩ : ∃ n : Nat, s = n := ⟨_, toNat_eq hs.1⟩
  obtain ⟨c, hc⟩ := h.holds.context (s := x) (by have := hs.2; omega)
  exact ⟨x, c, rfl, hc⟩

theorem keeps_next (ha : o.alpha ≠ .nan) (hb : o.beta ≠ .nan) (hi : Ppm.Initial Arith.xr Ppm.OkR o m0) (h : Keeps encode K M ctxs m0 m)
    {x : Nat} {c : List Int} (hx : ctxs[x]? = some c) (sym : Int) :
    ∃ (t : Nat) (m' : Ppm.Model Arith.xr), next encode fuel (.ppm m) (x : Int) sym = ((t : Int), .ppm m') ∧ Keeps encode K M ctxs m0 m' ∧
      ctxs[t]? = some (M.longest (Ppm.typedLabel m0.symbols encode sym :: c)) := by
  obtain ⟨t, m', k1, k2, _, k4⟩ := h.next ha hb hi hx sym
  exact ⟨t, m', by simp only [next, k1, settle], k2, k4⟩

theorem keeps_extract (ha : o.alpha ≠ .nan) (hb : o.beta ≠ .nan) (hi : Ppm.Initial Arith.xr Ppm.OkR o m0) (h : Keeps encode K M ctxs m0 m)
    {x : Nat} {c : List Int} (hx : ctxs[x]? = some c) :
    ∃ (m' : Ppm.Model Arith.xr), (extract encode fuel (.ppm m) (x : Int)).2 = .ppm m' ∧ Keeps encode K M ctxs m0 m' := by
  obtain ⟨a, m', k1, k2⟩ := h.step ha hb hi (op := .scores x) (h.holds.lt hx) trivial
  simp only [Ppm.step, Ppm.wrap] at k1
  cases e : Ppm.extractLMScores (x : Int) m with
  | error f => rw [e] at k1; cases k1
  | ok r =>
    rw [e] at k1; cases k1
    exact ⟨_, by simp only [extract, e, settle], k2⟩

theorem keeps_score (ha : o.alpha ≠ .nan) (hb : o.beta ≠ .nan) (hi : Ppm.Initial Arith.xr Ppm.OkR o m0) (h : Keeps encode K M ctxs m0 m)
    {x : Nat} {c : List Int} (hx : ctxs[x]? = some c) (sym : Int) :
    ∃ (m' : Ppm.Model Arith.xr), (symScore encode fuel (.ppm m) (x : Int) sym).2 = .ppm m' ∧ Keeps encode K M ctxs m0 m' := by
  obtain ⟨a, m', k1, k2⟩ := h.step ha hb hi (op := .score x sym) (h.holds.lt hx) trivial
  simp only [Ppm.step, Ppm.wrap] at k1
  cases e : Ppm.symLMScore encode (x : Int) sym m with
  | error f => rw [e] at k1; cases k1
  | ok r =>
    rw [e] at k1; cases k1
    exact ⟨_, by simp only [symScore, e, settle], k2⟩

theorem keeps_update (ha : o.alpha ≠ .nan) (hb : o.beta ≠ .nan) (hi : Ppm.Initial Arith.xr Ppm.OkR o m0) (hs : o.static = false)
    (h : Keeps encode K M ctxs m0 m) {x : Nat} {c : List Int} (hx : ctxs[x]? = some c) (cs : List Int) (n : Int) :
    ∃ (m' : Ppm.Model Arith.xr) (new : List (List Int)), update encode (.ppm m) (x : Int) cs n = (true, .ppm m') ∧
      Keeps encode K (if 0 < n then M.learn K (Ppm.alphabet m0.symbols encode) n.toNat c cs else M) (ctxs ++ new) m0 m' := by
  obtain ⟨m', new, k1, k2⟩ := h.learn ha hb hi hs hx cs n
  exact ⟨m', new, by simp only [update, k1, settle], k2⟩

/-- `s` is the state of the component for the context that typing `p` after `c` leads to. -/
def At (encode : Int → Str) (K : Nat) (m0 : Ppm.Model Arith.xr) (M : Memory) (ctxs : List (List Int)) (c : List Int)
    (x : Component Arith.xr) (s : Int) (p : List Int) : Prop :=
  ∃ (m : Ppm.Model Arith.xr) (q : Nat), x = .ppm m ∧ Keeps encode K M ctxs m0 m ∧ s = q ∧
    ctxs[q]? = some (M.longest ((p.map (Ppm.typedLabel m0.symbols encode)).reverse ++ c))

theorem at_points (ha : o.alpha ≠ .nan) (hb : o.beta ≠ .nan) (hi : Ppm.Initial Arith.xr Ppm.OkR o m0) (M : Memory)
    (ctxs : List (List Int)) (c : List Int) :
    (ops Arith.xr encode fuel).Points (live encode fuel) ok (At encode K m0 M ctxs c) where
  closed := closedOn _ _ _
  next x s sym p _ _ h := by
    obtain ⟨m, q, rfl, h1, rfl, h2⟩ := h
    obtain ⟨t, m', k1, k2, k3⟩ := keeps_next (fuel := fuel) ha hb hi h1 h2 sym
    refine ⟨m', t, by simp only [ops, k1], k2, by simp only [ops, k1], ?_⟩
    rw [k3, h1.grounded.longest_cons (Ppm.typedLabel_ne _ _ _)]
    simp
  keep_next x s sym y p _ hs h := by
    obtain ⟨m, q, rfl, h1, rfl, h2⟩ := h
    obtain ⟨z, d, rfl, hz⟩ := Keeps.name h1 hs
    obtain ⟨t, m', k1, k2, k3⟩ := keeps_next (fuel := fuel) ha hb hi h1 hz sym
    exact ⟨m', q, by simp only [ops, k1], k2, rfl, h2⟩
  keep_extract x s y p _ hs h := by
    obtain ⟨m, q, rfl, h1, rfl, h2⟩ := h
    obtain ⟨z, d, rfl, hz⟩ := Keeps.name h1 hs
    obtain ⟨m', k1, k2⟩ := keeps_extract (fuel := fuel) ha hb hi h1 hz
    exact ⟨m', q, k1, k2, rfl, h2⟩
  keep_score x s sym y p _ hs h := by
    obtain ⟨m, q, rfl, h1, rfl, h2⟩ := h
    obtain ⟨z, d, rfl, hz⟩ := Keeps.name h1 hs
    obtain ⟨m', k1, k2⟩ := keeps_score (fuel := fuel) ha hb hi h1 hz sym
    exact ⟨m', q, k1, k2, rfl, h2⟩

/-- `s` is the state of the component for a context that the text `p` ends with. -/
def Stems (encode : Int → Str) (K : Nat) (m0 : Ppm.Model Arith.xr) (x : Component Arith.xr) (s : Int) (p : List Int) : Prop :=
  ∃ (m : Ppm.Model Arith.xr) (M : Memory) (ctxs : List (List Int)) (q : Nat) (c : List Int), x = .ppm m ∧ Keeps encode K M ctxs m0 m ∧
    s = q ∧ ctxs[q]? = some c ∧ c <+: (Ppm.alphabet m0.symbols encode).past p

theorem stems_roots (ha : o.alpha ≠ .nan) (hb : o.beta ≠ .nan) (hi : Ppm.Initial Arith.xr Ppm.OkR o m0) (hst : o.static = false) :
    (ops Arith.xr encode fuel).Roots (live encode fuel) ok (Stems encode K m0) where
  closed := closedOn _ _ _
  start x s p _ _ h := by
    obtain ⟨m, M, ctxs, q, c, rfl, h1, rfl, h2, h3⟩ := h
    exact ⟨m, M, ctxs, m.core.fst.start, [0], rfl, h1, rfl, h1.holds.start, by simp [Ppm.Alphabet.past]⟩
  next x s sym p _ _ h := by
    obtain ⟨m, M, ctxs, q, c, rfl, h1, rfl, h2, h3⟩ := h
    obtain ⟨t, m', k1, k2, k3⟩ := keeps_next (fuel := fuel) ha hb hi h1 h2 sym
    refine ⟨m', M, ctxs, t, _, by simp only [ops, k1], k2, by simp only [ops, k1], k3, ?_⟩
    rw [Ppm.past_snoc]
    exact (M.longest_spec h1.grounded.nil _).2.1.trans ((List.prefix_cons_inj _).mpr h3)
  keep_next x s sym y p _ hs h := by
    obtain ⟨m, M, ctxs, q, c, rfl, h1, rfl, h2, h3⟩ := h
    obtain ⟨z, d, rfl, hz⟩ := Keeps.name h1 hs
    obtain ⟨t, m', k1, k2, k3⟩ := keeps_next (fuel := fuel) ha hb hi h1 hz sym
    exact ⟨m', M, ctxs, q, c, by simp only [ops, k1], k2, rfl, h2, h3⟩
  keep_extract x s y p _ hs h := by
    obtain ⟨m, M, ctxs, q, c, rfl, h1, rfl, h2, h3⟩ := h
    obtain ⟨z, d, rfl, hz⟩ := Keeps.name h1 hs
    obtain ⟨m', k1, k2⟩ := keeps_extract (fuel := fuel) ha hb hi h1 hz
    exact ⟨m', M, ctxs, q, c, k1, k2, rfl, h2, h3⟩
  keep_score x s sym y p _ hs h := by
    obtain ⟨m, M, ctxs, q, c, rfl, h1, rfl, h2, h3⟩ := h
    obtain ⟨z, d, rfl, hz⟩ := Keeps.name h1 hs
    obtain ⟨m', k1, k2⟩ := keeps_score (fuel := fuel) ha hb hi h1 hz sym
    exact ⟨m', M, ctxs, q, c, k1, k2, rfl, h2, h3⟩
  keep_update x s cs n y p _ hs h := by
    obtain ⟨m, M, ctxs, q, c, rfl, h1, rfl, h2, h3⟩ := h
    obtain ⟨z, d, rfl, hz⟩ := Keeps.name h1 hs
    obtain ⟨m', new, k1, k2⟩ := keeps_update ha hb hi hst h1 hz cs n
    refine ⟨m', _, _, q, c, by simp only [ops, k1], k2, rfl, ?_, h3⟩
    rw [List.getElem?_append_left (lt_of_getElem?_eq_some h2)]; exact h2

/-- Asking does not change what is remembered. -/
theorem keeps_touch (ha : o.alpha ≠ .nan) (hb : o.beta ≠ .nan) (hi : Ppm.Initial Arith.xr Ppm.OkR o m0) {x : Component Arith.xr}
    (ht : Touch ((ops Arith.xr encode fuel).guard (live encode fuel) ok) (.ppm m) x) (h : Keeps encode K M ctxs m0 m) :
    ∃ m' : Ppm.Model Arith.xr, x = .ppm m' ∧ Keeps encode K M ctxs m0 m' := by
  classical
  generalize hy : (Component.ppm m : Component Arith.xr) = y at ht
  induction ht with
  | refl => exact ⟨m, hy.symm, h⟩
  | next s c _ ih =>
    obtain ⟨m1, rfl, h1⟩ := ih
    simp only [LMOps.guard]; split
    · next hk =>
      obtain ⟨z, d, rfl, hz⟩ := Keeps.name h1 hk.2
      obtain ⟨t, m', k1, k2, k3⟩ := keeps_next (fuel := fuel) ha hb hi h1 hz c
      exact ⟨m', by simp only [ops, k1], k2⟩
    · exact ⟨m1, rfl, h1⟩
  | extract s _ ih =>
    obtain ⟨m1, rfl, h1⟩ := ih
    simp only [LMOps.guard]; split
    · next hk =>
      obtain ⟨z, d, rfl, hz⟩ := Keeps.name h1 hk.2
      obtain ⟨m', k1, k2⟩ := keeps_extract (fuel := fuel) ha hb hi h1 hz
      exact ⟨m', k1, k2⟩
    · exact ⟨m1, rfl, h1⟩
  | score s c _ ih =>
    obtain ⟨m1, rfl, h1⟩ := ih
    simp only [LMOps.guard]; split
    · next hk =>
      obtain ⟨z, d, rfl, hz⟩ := Keeps.name h1 hk.2
      obtain ⟨m', k1, k2⟩ := keeps_score (fuel := fuel) ha hb hi h1 hz c
      exact ⟨m', k1, k2⟩
    · exact ⟨m1, rfl, h1⟩

/-! ## The hub with such a component -/

variable {orderN : List (Int × Nat) → List (Int × Nat)} {orderV : List (Str × XR) → List (Str × XR)}
  {h h' : Hub Arith.xr (Component Arith.xr)} {j : Nat}

/-- the components, only asked about their own states -/
noncomputable abbrev genv (encode : Int → Str) (fuel : Nat) (orderN : List (Int × Nat) → List (Int × Nat))
    (orderV : List (Str × XR) → List (Str × XR)) : Env Arith.xr (Component Arith.xr) :=
  (env Arith.xr encode fuel orderN orderV).guard (live encode fuel) ok

/-- Component `j` of the hub holds the memory. -/
def HoldsAt (encode : Int → Str) (K : Nat) (m0 : Ppm.Model Arith.xr) (j : Nat) (M : Memory) (ctxs : List (List Int))
    (h : Hub Arith.xr (Component Arith.xr)) : Prop :=
  ∃ m : Ppm.Model Arith.xr, h.models[j]? = some (.ppm m) ∧ Keeps encode K M ctxs m0 m

theorem HoldsAt.touches (ha : o.alpha ≠ .nan) (hb : o.beta ≠ .nan) (hi : Ppm.Initial Arith.xr Ppm.OkR o m0)
    (hh : HoldsAt encode K m0 j M ctxs h) (ht : Touches (genv encode fuel orderN orderV).toLMOps h.models h'.models) :
    HoldsAt encode K m0 j M ctxs h' := by
  obtain ⟨m, h1, h2⟩ := hh
  obtain ⟨x, h3, h4⟩ := Pointwise.get ht h1
  obtain ⟨m', rfl, h5⟩ := keeps_touch ha hb hi h4 h2
  exact ⟨m', h3, h5⟩

/-- The components accept the counts. -/
theorem loop_accepted (ho : Own (live encode fuel) ok h) {s : Nat} {st : HubState XR} (hst : h.states[s]? = some st) {cs : List Int} {n : Int}
    {ws : List XR} {b : Bool} {ms : List (Component Arith.xr)}
    (he : updateLoop (genv encode fuel orderN orderV) st cs n 0 ws h.models = .ok (b, ms)) : b = true := by
  refine updateLoop_all (okay := fun m s => live encode fuel m ∧ ok m s) (fun m s cs n hm => ?_) 0 _ _ _ _ (ho.at hst) he
  simp only [genv, Env.guard, LMOps.guard]
  rw [if_pos hm]
  exact update_accepted hm.1 hm.2 cs n

/-- What the components learn from counts at an entry of the table. -/
theorem loop_learns (ha : o.alpha ≠ .nan) (hb : o.beta ≠ .nan) (hi : Ppm.Initial Arith.xr Ppm.OkR o m0) (hs : o.static = false)
    (ho : Own (live encode fuel) ok h) (hh : HoldsAt encode K m0 j M ctxs h) {s : Nat} {st : HubState XR} (hst : h.states[s]? = some st)
    {x : Nat} {c : List Int} (hx : st.modelState j = x) (hc : ctxs[x]? = some c) {cs : List Int} {n : Int}
    {ws : List XR} (hj : j < ws.length) {b : Bool} {ms : List (Component Arith.xr)}
    (he : updateLoop (genv encode fuel orderN orderV) st cs n 0 ws h.models = .ok (b, ms)) :
    ∃ (m' : Ppm.Model Arith.xr) (new : List (List Int)), ms[j]? = some (.ppm m') ∧
      Keeps encode K (if 0 < n then M.learn K (Ppm.alphabet m0.symbols encode) n.toNat c cs else M) (ctxs ++ new) m0 m' := by
  have hbt := loop_accepted ho hst he
  subst hbt
  obtain ⟨m, h1, h2⟩ := hh
  obtain ⟨y, e1, e2⟩ := (updateLoop_each _ _ _ _ he).1 j _ hj h1
  have hat := ho.at hst j _ h1
  simp only [genv, Env.guard, LMOps.guard] at e1
  rw [if_pos hat, Nat.zero_add, hx] at e1
  obtain ⟨m', new, k1, k2⟩ := keeps_update ha hb hi hs h2 hc cs n
  change update encode (.ppm m) (x : Int) cs n = (true, y) at e1
  rw [k1] at e1
  cases e1
  exact ⟨m', new, e2, k2⟩

/-- The entry of the table for the start state names the beginning of a string. -/
theorem HoldsAt.zero (hh : HoldsAt encode K m0 j M ctxs h) (hS : StartOK (genv encode fuel orderN orderV) h) :
    ∃ (st : HubState XR) (x : Nat), h.states[0]? = some st ∧ st.modelState j = x ∧ ctxs[x]? = some [0] := by
  obtain ⟨m, h1, h2⟩ := hh
  obtain ⟨st, e1, e2, _⟩ := hS
  refine ⟨st, m.core.fst.start, e1, ?_, h2.holds.start⟩
  simp only [HubState.modelState, e2, List.getElem?_map, h1, Option.map_some]
  rfl

theorem HoldsAt.name (ho : Own (live encode fuel) ok h) (hh : HoldsAt encode K m0 j M ctxs h) {s : Nat} {st : HubState XR}
    (hst : h.states[s]? = some st) : ∃ (x : Nat) (c : List Int), st.modelState j = x ∧ ctxs[x]? = some c := by
  obtain ⟨m, h1, h2⟩ := hh
  have := (ho.at hst j _ h1).2
  rw [Nat.zero_add] at this
  exact Keeps.name h2 this

/-- What a call of `UpdateLMCounts` makes of the memory. -/
def Counts (K : Nat) (a : Ppm.Alphabet) (valid : Bool) (s : Int) (cs : List Int) (n : Int) (M M' : Memory) : Prop :=
  (valid = false ∧ M' = M) ∨
  (valid = true ∧ ∃ c, M.known c ∧ (s = 0 → c = [0]) ∧ M' = if 0 < n then M.learn K a n.toNat c cs else M)

theorem update_memory (hf : (env Arith.xr encode fuel orderN orderV).Fair) (ha : o.alpha ≠ .nan) (hb : o.beta ≠ .nan)
    (hi : Ppm.Initial Arith.xr Ppm.OkR o m0) (hs : o.static = false)
    (ho : Own (live encode fuel) ok h) (hS : StartOK (genv encode fuel orderN orderV) h) (hh : HoldsAt encode K m0 j M ctxs h)
    (hj : j < h.weights.length) {s : Int} {cs : List Int} {n : Int} {r : Bool}
    (he : updateLMCounts (genv encode fuel orderN orderV) h s cs n = .ok (r, h')) :
    ∃ (M' : Memory) (ctxs' : List (List Int)), Counts K (Ppm.alphabet m0.symbols encode) (h.valid s) s cs n M M' ∧
      HoldsAt encode K m0 j M' ctxs' h' := by
  have hc := closedOn Arith.xr encode fuel
  obtain ⟨h2, g, ht, hcase⟩ := update_parts (env := genv encode fuel orderN orderV) hf.guard ho.inv he
  have ho2 : Own (live encode fuel) ok h2 := ho.good hf hc g
  have hS2 := g.pres _ _ (start_preserved hf.guard guard_start) hS
  have hh2 := hh.touches ha hb hi ht
  rcases hcase with ⟨hv, rfl, rfl⟩ | ⟨hv, st, b, ms, hst, hl, ht3, -⟩
  · exact ⟨M, ctxs, .inl ⟨hv, rfl⟩, hh2⟩
  · obtain ⟨x, c, hx, hxc⟩ := hh2.name ho2 hst
    obtain ⟨m', new, k1, k2⟩ := loop_learns ha hb hi hs ho2 hh2 hst hx hxc (by rw [g.const.weights]; exact hj) hl
    refine ⟨_, ctxs ++ new, .inr ⟨hv, c, ?_, ?_, rfl⟩, ?_⟩
    · obtain ⟨m2, _, q⟩ := hh2
      exact q.holds.known hxc
    · rintro rfl
      obtain ⟨st0, x0, e1, e2, e3⟩ := hh2.zero hS2
      rw [show (0 : Int).toNat = 0 from rfl] at hst
      rw [e1] at hst; cases hst
      rw [e2] at hx
      have : x0 = x := by omega
      subst this
      rw [e3] at hxc; cases hxc; rfl
    · have : HoldsAt encode K m0 j _ (ctxs ++ new) { h2 with models := ms } := ⟨m', k1, k2⟩
      exact this.touches ha hb hi ht3

end Mozolm.System
