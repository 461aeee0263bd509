import Verif.System.Live
import Verif.Hub.Quiet
import Verif.Word.Place

/-!
# What the states of the component models stand for

Of the bigram, character and PPM models the state after a text is the one `NextState` leads to.  The word
model numbers its prefix states in the order in which they are asked for; its states stand for places.
-/

namespace Mozolm.System
variable {A : Arith} {encode : Int → Str} {fuel : Nat}

/-- The state a component reaches by a text. -/
def path (encode : Int → Str) (fuel : Nat) (m : Component A) (p : List Int) : Int :=
  Hub.pathState (fun s c => (next encode fuel m s c).1) (start m) p

theorem pathState_snoc (view : Int → Int → Int) (s : Int) (p : List Int) (c : Int) :
    Hub.pathState view s (p ++ [c]) = view (Hub.pathState view s p) c := by
  induction p generalizing s with
  | nil => rfl
  | cons x p ih => exact ih (view s x)

theorem path_snoc (m : Component A) (p : List Int) (c : Int) :
    path encode fuel m (p ++ [c]) = (next encode fuel m (path encode fuel m p) c).1 := pathState_snoc _ _ _ _

/-- Not the word model. -/
def Plain : Component A → Prop
  | .word _ => False
  | _ => True

/-- `m'` answers at the states of `m` as `m` does. -/
structure Alike (encode : Int → Str) (fuel : Nat) (m m' : Component A) : Prop where
  start : start m' = start m
  next : ∀ s c, ok m s → (next encode fuel m' s c).1 = (next encode fuel m s c).1
  extract : ∀ s, ok m s → (extract encode fuel m' s).1 = (extract encode fuel m s).1
  score : ∀ s c, ok m s → (symScore encode fuel m' s c).1 = (symScore encode fuel m s c).1

theorem Alike.refl (m : Component A) : Alike encode fuel m m :=
  ⟨rfl, fun _ _ _ => rfl, fun _ _ => rfl, fun _ _ _ => rfl⟩

theorem ppm_alike {m m' : Ppm.Model A} {Ok : A.C → Prop} {ord : Nat → Nat} {V u : Nat}
    (h : Ppm.Inv A Ok m ord V u) (hc : Ppm.CacheOk m' Ppm.None') (hs : m'.sig = m.sig) :
    Alike encode fuel (.ppm m) (.ppm m') := by
  have hcore : m'.core = m.core := congrArg Ppm.Sig.core hs
  refine ⟨by simp only [System.start, hcore], ?_, ?_, ?_⟩
  · rintro s c ⟨h0, h1⟩
    obtain ⟨s, rfl⟩ : ∃ n : Nat, s = n := ⟨_, toNat_eq h0⟩
    obtain ⟨t, _, ht, hq⟩ := Ppm.nextState_query (g := m.sig) h.laws h.wf h.labels encode c (s := s)
      (by simpa [Ppm.Model.sig] using h1)
    obtain ⟨m1, e1, _⟩ := hq m rfl h.cache
    obtain ⟨m2, e2, _⟩ := hq m' hs hc
    simp only [System.next, e1, e2, settle]
  · rintro s ⟨h0, h1⟩
    obtain ⟨s, rfl⟩ : ∃ n : Nat, s = n := ⟨_, toNat_eq h0⟩
    have hs' : s < m.core.fst.states.length := by omega
    obtain ⟨d, hd, hsz⟩ := h.wf.ideal h.laws m.alpha s hs'
    obtain ⟨r, hr, _, hp, hsy⟩ := Ppm.fill_ok hsz m.symbols
    have hq := Ppm.extract_query (g := m.sig) h.laws h.wf hs' hd hr
    obtain ⟨m1, e1, _⟩ := hq m rfl h.cache
    obtain ⟨m2, e2, _⟩ := hq m' hs hc
    simp only [System.extract, e1, e2, settle]
  · rintro s c ⟨h0, h1⟩
    obtain ⟨s, rfl⟩ : ∃ n : Nat, s = n := ⟨_, toNat_eq h0⟩
    have hs' : s < m.core.fst.states.length := by omega
    obtain ⟨d, hd, hsz⟩ := h.wf.ideal h.laws m.alpha s hs'
    obtain ⟨w, hw, _⟩ := Ppm.symLMScore_query (g := m.sig) h.laws h.wf h.labels encode c hs' hd
    obtain ⟨m1, e1, _⟩ := hw m rfl h.cache
    obtain ⟨m2, e2, _⟩ := hw m' hs hc
    simp only [System.symScore, e1, e2, settle]

/-- `NextState` of the other models leaves a model that answers alike. -/
theorem alike_next {m : Component A} (hp : Plain m) (h : live encode fuel m) {s : Int} (hs : ok m s) (c : Int) :
    Plain (next encode fuel m s c).2 ∧ Alike encode fuel m (next encode fuel m s c).2 ∧
      ok m (next encode fuel m s c).1 := by
  cases m with
  | bigram m => exact ⟨trivial, .refl _, trivial⟩
  | ppm m =>
    obtain ⟨Ok, ord, V, u, h⟩ := h
    obtain ⟨h0, h1⟩ := hs
    obtain ⟨s, rfl⟩ : ∃ n : Nat, s = n := ⟨_, toNat_eq h0⟩
    obtain ⟨t, _, ht, hq⟩ := Ppm.nextState_query (g := m.sig) h.laws h.wf h.labels encode c (s := s)
      (by simpa [Ppm.Model.sig] using h1)
    obtain ⟨m1, e1, e2, e3⟩ := hq m rfl h.cache
    simp only [System.next, e1, settle]
    refine ⟨trivial, ppm_alike h e3 e2.sig, ?_⟩
    have ht : t < m.core.fst.states.length := ht
    exact ⟨by omega, by omega⟩
  | char m =>
    obtain ⟨s, rfl⟩ : ∃ n : Nat, s = n := ⟨_, toNat_eq hs.1⟩
    obtain ⟨r, e, e2⟩ := h.next encode c (s := s) (by have := hs.2; omega)
    simp only [next, e, settle]
    exact ⟨trivial, .refl _, e2⟩
  | word m => exact absurd hp id
  | overflow => exact ⟨trivial, .refl _, trivial⟩
  | crashed f => exact absurd h id

theorem alike_extract {m : Component A} (hp : Plain m) (h : live encode fuel m) {s : Int} (hs : ok m s) :
    Plain (extract encode fuel m s).2 ∧ Alike encode fuel m (extract encode fuel m s).2 := by
  cases m with
  | bigram m =>
    obtain ⟨r, e, _⟩ := bigram_extract h A encode s
    simp only [extract, e, settle]
    exact ⟨trivial, .refl _⟩
  | ppm m =>
    obtain ⟨Ok, ord, V, u, h⟩ := h
    obtain ⟨h0, h1⟩ := hs
    obtain ⟨s, rfl⟩ : ∃ n : Nat, s = n := ⟨_, toNat_eq h0⟩
    have hs' : s < m.core.fst.states.length := by omega
    obtain ⟨d, hd, hsz⟩ := h.wf.ideal h.laws m.alpha s hs'
    obtain ⟨r, hr, _, hp, hsy⟩ := Ppm.fill_ok hsz m.symbols
    obtain ⟨m1, e1, e2, e3⟩ := Ppm.extract_query (g := m.sig) h.laws h.wf hs' hd hr m rfl h.cache
    simp only [System.extract, e1, settle]
    exact ⟨trivial, ppm_alike h e3 e2.sig⟩
  | char m =>
    obtain ⟨s, rfl⟩ : ∃ n : Nat, s = n := ⟨_, toNat_eq hs.1⟩
    obtain ⟨r, e, _⟩ := h.extract (s := s) (by have := hs.2; omega)
    simp only [extract, e, settle]
    exact ⟨trivial, .refl _⟩
  | word m => exact absurd hp id
  | overflow => exact ⟨trivial, .refl _⟩
  | crashed f => exact absurd h id

theorem alike_score {m : Component A} (hp : Plain m) (h : live encode fuel m) {s : Int} (hs : ok m s) (c : Int) :
    Plain (symScore encode fuel m s c).2 ∧ Alike encode fuel m (symScore encode fuel m s c).2 := by
  cases m with
  | bigram m =>
    obtain ⟨r, e⟩ := bigram_score h A s c
    simp only [symScore, e, settle]
    exact ⟨trivial, .refl _⟩
  | ppm m =>
    obtain ⟨Ok, ord, V, u, h⟩ := h
    obtain ⟨h0, h1⟩ := hs
    obtain ⟨s, rfl⟩ : ∃ n : Nat, s = n := ⟨_, toNat_eq h0⟩
    have hs' : s < m.core.fst.states.length := by omega
    obtain ⟨d, hd, hsz⟩ := h.wf.ideal h.laws m.alpha s hs'
    obtain ⟨w, hw, _⟩ := Ppm.symLMScore_query (g := m.sig) h.laws h.wf h.labels encode c hs' hd
    obtain ⟨m1, e1, e2, e3⟩ := hw m rfl h.cache
    simp only [System.symScore, e1, settle]
    exact ⟨trivial, ppm_alike h e3 e2.sig⟩
  | char m =>
    obtain ⟨s, rfl⟩ : ∃ n : Nat, s = n := ⟨_, toNat_eq hs.1⟩
    obtain ⟨r, e⟩ := labelCost_total h.closed h.enough (s := s) (by have := hs.2; omega) (NGram.symLabel encode m c)
    have e : NGram.symLMScore encode fuel m s c = .ok r := e
    simp only [symScore, e, settle]
    exact ⟨trivial, .refl _⟩
  | word m => exact absurd hp id
  | overflow => exact ⟨trivial, .refl _⟩
  | crashed f => exact absurd h id

theorem path_ok {m : Component A} (hp : Plain m) (h : live encode fuel m) (p : List Int) :
    ok m (path encode fuel m p) := by
  have key : ∀ (p : List Int) (s : Int), ok m s →
      ok m (Hub.pathState (fun s c => (next encode fuel m s c).1) s p) := by
    intro p
    induction p with
    | nil => exact fun s hs => hs
    | cons c p ih => exact fun s hs => ih _ (alike_next hp h hs c).2.2
  exact key p _ ((closedOn A encode fuel).start m h)

theorem Alike.path {m m' : Component A} (ha : Alike encode fuel m m') (hp : Plain m) (h : live encode fuel m)
    (p : List Int) : path encode fuel m' p = path encode fuel m p := by
  have key : ∀ (p : List Int) (s : Int), ok m s →
      Hub.pathState (fun s c => (System.next encode fuel m' s c).1) s p =
        Hub.pathState (fun s c => (System.next encode fuel m s c).1) s p := by
    intro p
    induction p with
    | nil => exact fun s hs => rfl
    | cons c p ih =>
      intro s hs
      simp only [Hub.pathState, ha.next s c hs]
      exact ih _ (alike_next hp h hs c).2.2
  unfold System.path
  rw [ha.start]
  exact key p _ ((closedOn A encode fuel).start m h)

/-! ## Places of the word model -/

open Classical in
/-- A place a character leads to. -/
noncomputable def placeStep (M : Word.Static A.C) (P : Word.Place) (c : Int) : Word.Place :=
  if h : ∃ Q, Word.Types M.base.fst M.base.unigram.toNat M.base.symbols M.base.oov P c Q ∧
      Q.Valid M.base.fst.states.length then h.choose else .unknown

/-- The place a text leads to from the start. -/
noncomputable def placeOf (M : Word.Static A.C) (p : List Int) : Word.Place :=
  p.foldl (placeStep M) (.word M.base.fst.start [])

theorem placeOf_snoc (M : Word.Static A.C) (p : List Int) (c : Int) :
    placeOf M (p ++ [c]) = placeStep M (placeOf M p) c := by simp [placeOf]

theorem placeStep_spec {m : Word.Model A.C} (hm : Word.Loaded m) {P : Word.Place}
    (hP : P.Valid m.static.base.fst.states.length) (c : Int) :
    Word.Types m.static.base.fst m.static.base.unigram.toNat m.static.base.symbols m.static.base.oov P c
      (placeStep m.static P c) ∧ (placeStep m.static P c).Valid m.static.base.fst.states.length := by
  obtain ⟨u, hu, _⟩ := hm.fit
  have hx := Word.C31_total hm (u := m.static.base.unigram.toNat) (by rw [hu]; rfl) hP c
  unfold placeStep
  rw [dif_pos hx]
  exact hx.choose_spec

theorem placeOf_valid {m : Word.Model A.C} (hm : Word.Loaded m) (p : List Int) :
    (placeOf m.static p).Valid m.static.base.fst.states.length := by
  have key : ∀ (p : List Int) (P : Word.Place), P.Valid m.static.base.fst.states.length →
      (p.foldl (placeStep m.static) P).Valid m.static.base.fst.states.length := by
    intro p
    induction p with
    | nil => exact fun P h => h
    | cons c p ih => exact fun P h => ih _ (placeStep_spec hm h c).2
  exact key p _ hm.closed.1

/-- An answer of the word model with the given automaton and tables, at some state standing for the place of
the text. -/
def WordAnswers (fuel : Nat) (M : Word.Static A.C) (p : List Int) (r : LMScores A.D) : Prop :=
  ∃ I c s c', Word.Inv M (Word.sortedWords M.base.symbols M.base.oov) I ∧ Word.CacheInv M c ∧
    Word.Stands M I s (placeOf M p) ∧
    Word.extractLMScores A fuel ⟨M, I, c⟩ s (Word.noScores A) = .ok (true, r, c')

/-- A cost the word model gives a character at some state standing for the place of the text. -/
def WordCosts (fuel : Nat) (M : Word.Static A.C) (p : List Int) (sym : Int) (x : A.C) : Prop :=
  ∃ I c s c', Word.Inv M (Word.sortedWords M.base.symbols M.base.oov) I ∧ Word.CacheInv M c ∧
    Word.Stands M I s (placeOf M p) ∧ Word.symLMScore A fuel ⟨M, I, c⟩ s sym = .ok (x, c')

open Classical in
/-- The answer of the word model to a text. -/
noncomputable def wordAns (fuel : Nat) (M : Word.Static A.C) (p : List Int) : Option (LMScores A.D) :=
  if h : ∃ r, WordAnswers fuel M p r then some h.choose else none

open Classical in
/-- The cost the word model gives a character after a text. -/
noncomputable def wordCost (fuel : Nat) (M : Word.Static A.C) (p : List Int) (c : Int) : A.C :=
  if h : ∃ x, WordCosts fuel M p c x then h.choose else A.one

/-- The answer of a component to a text. -/
noncomputable def ans (encode : Int → Str) (fuel : Nat) (m : Component A) (p : List Int) : Option (LMScores A.D) :=
  match m with
  | .word w => wordAns fuel w.static p
  | m => (extract encode fuel m (path encode fuel m p)).1

/-- The cost a component gives a character after a text. -/
noncomputable def cost (encode : Int → Str) (fuel : Nat) (m : Component A) (p : List Int) (c : Int) : A.C :=
  match m with
  | .word w => wordCost fuel w.static p c
  | m => (symScore encode fuel m (path encode fuel m p) c).1

/-- The state of the component stands for the text. -/
def den (encode : Int → Str) (fuel : Nat) (m : Component A) (s : Int) (p : List Int) : Prop :=
  match m with
  | .word w => Word.Stands w.static w.imp s (placeOf w.static p)
  | m => s = path encode fuel m p

theorem den_plain {m : Component A} (hp : Plain m) (s : Int) (p : List Int) :
    den encode fuel m s p ↔ s = path encode fuel m p := by
  cases m <;> first | exact Iff.rfl | exact absurd hp id

theorem ans_plain {m : Component A} (hp : Plain m) :
    ans encode fuel m = fun p => (extract encode fuel m (path encode fuel m p)).1 := by
  cases m <;> first | rfl | exact absurd hp id

theorem cost_plain {m : Component A} (hp : Plain m) :
    cost encode fuel m = fun p c => (symScore encode fuel m (path encode fuel m p) c).1 := by
  cases m <;> first | rfl | exact absurd hp id

theorem Alike.kept {m m' : Component A} (ha : Alike encode fuel m m') (hp : Plain m) (hp' : Plain m')
    (h : live encode fuel m) : Hub.Kept ok (den encode fuel) (ans encode fuel) (cost encode fuel) m m' := by
  refine ⟨fun x p hx hd => ?_, ?_, ?_⟩
  · rw [den_plain hp] at hd
    rw [den_plain hp', ha.path hp h]
    exact hd
  · rw [ans_plain hp, ans_plain hp']
    funext p
    rw [ha.path hp h, ha.extract _ (path_ok hp h p)]
  · rw [cost_plain hp, cost_plain hp']
    funext p c
    rw [ha.path hp h, ha.score _ _ (path_ok hp h p)]

theorem word_kept {m m' : Word.Model A.C} (hs : m'.static = m.static)
    (hg : ∀ x P, Word.Stands m.static m.imp x P → Word.Stands m.static m'.imp x P) :
    Hub.Kept ok (den encode fuel) (ans encode fuel) (cost encode fuel) (.word m) (.word m') := by
  refine ⟨fun x p _ hd => ?_, ?_, ?_⟩
  · have hd : Word.Stands m.static m.imp x (placeOf m.static p) := hd
    show Word.Stands m'.static m'.imp x (placeOf m'.static p)
    rw [hs]
    exact hg x _ hd
  · funext p
    show wordAns fuel m'.static p = wordAns fuel m.static p
    rw [hs]
  · funext p c
    show wordCost fuel m'.static p c = wordCost fuel m.static p c
    rw [hs]

section word
variable {m m0 : Word.Model A.C}

theorem WordLive.eta (h : WordLive encode fuel m m0) : m = ⟨m0.static, m.imp, m.cache⟩ := by rw [← h.same]

theorem WordLive.answer (h : WordLive encode fuel m m0) {s : Int} {p : List Int}
    (hs : Word.Stands m.static m.imp s (placeOf m.static p)) {r : LMScores A.D} {c : Word.Cache A.C}
    (he : Word.extractLMScores A fuel m s (Word.noScores A) = .ok (true, r, c)) :
    ans encode fuel (.word m) p = some r := by
  have hst := h.same
  show wordAns fuel m.static p = some r
  rw [h.eta] at he
  rw [hst] at hs ⊢
  have hx : ∃ r, WordAnswers fuel m0.static p r := ⟨r, m.imp, m.cache, s, c, h.inv, h.cache, hs, he⟩
  have uniq : ∀ r', WordAnswers fuel m0.static p r' → r' = r := by
    rintro r' ⟨I2, c2, s2, c2', k1, k2, k3, k4⟩
    obtain ⟨r2, _, _, e1, e2, _⟩ := Word.extract_place h.usable h.enough k1 h.inv k3 hs k2 h.cache (Word.noScores A)
    rw [k4] at e1
    rw [he] at e2
    cases e2
    cases e1
    rfl
  unfold wordAns
  rw [dif_pos hx, uniq _ hx.choose_spec]

theorem WordLive.scored (h : WordLive encode fuel m m0) {s : Int} {p : List Int}
    (hs : Word.Stands m.static m.imp s (placeOf m.static p)) {sym : Int} {x : A.C} {c : Word.Cache A.C}
    (he : Word.symLMScore A fuel m s sym = .ok (x, c)) : cost encode fuel (.word m) p sym = x := by
  have hst := h.same
  show wordCost fuel m.static p sym = x
  rw [h.eta] at he
  rw [hst] at hs ⊢
  have hx : ∃ x, WordCosts fuel m0.static p sym x := ⟨x, m.imp, m.cache, s, c, h.inv, h.cache, hs, he⟩
  have uniq : ∀ x', WordCosts fuel m0.static p sym x' → x' = x := by
    rintro x' ⟨I2, c2, s2, c2', k1, k2, k3, k4⟩
    obtain ⟨r2, _, _, e1, e2⟩ := Word.score_place h.usable h.enough k1 h.inv k3 hs k2 h.cache sym
    rw [k4] at e1
    rw [he] at e2
    cases e2
    cases e1
    rfl
  unfold wordCost
  rw [dif_pos hx, uniq _ hx.choose_spec]

/-- Typing a character at a state standing for a text. -/
theorem WordLive.typed (h : WordLive encode fuel m m0) {s : Int} {p : List Int}
    (hs : Word.Stands m.static m.imp s (placeOf m.static p)) {c : Int} (hc : 0 ≤ c) {r : Int} {I : Word.Implicit}
    (he : Word.nextState A encode fuel m.static m.imp s c = .ok (r, I)) :
    Word.Stands m.static I r (placeOf m.static (p ++ [c])) := by
  have hst := h.same
  rw [hst] at hs he ⊢
  obtain ⟨ht, _⟩ := placeStep_spec h.usable.toLoaded (placeOf_valid h.usable.toLoaded p) c
  obtain ⟨u, hu, _⟩ := h.usable.toLoaded.fit
  obtain ⟨r', I', e1, e2, _⟩ := Word.typing_step h.usable.toLoaded h.encodes h.enough h.inv
    (u := m0.static.base.unigram.toNat) (by rw [hu]; rfl) (by omega) hs ht
  rw [he] at e1
  cases e1
  rw [placeOf_snoc]
  exact e2

end word

/-- The parts of `Traces` that do not depend on updates. -/
theorem trace_start (m : Component A) (h : live encode fuel m) : den encode fuel m (start m) [] := by
  cases m with
  | word m =>
    obtain ⟨m0, h⟩ := h
    show Word.Stands m.static m.imp m.static.base.fst.start (.word m.static.base.fst.start [])
    rw [h.same]
    exact ⟨rfl, h.usable.closed.1⟩
  | _ => rfl

theorem trace_next (m : Component A) (s c : Int) (p : List Int) (h : live encode fuel m) (hs : ok m s)
    (hd : den encode fuel m s p) (hc : 0 ≤ c) :
    den encode fuel (next encode fuel m s c).2 (next encode fuel m s c).1 (p ++ [c]) := by
  by_cases hp : Plain m
  · obtain ⟨a1, a2, _⟩ := alike_next hp h hs c
    rw [den_plain a1, a2.path hp h, path_snoc]
    rw [den_plain hp] at hd
    rw [hd]
  · cases m with
    | word m =>
      obtain ⟨m0, h⟩ := h
      obtain ⟨r, I, e, -⟩ := h.next hs.1 c
      simp only [next, e, settle]
      exact h.typed hd hc e
    | _ => exact absurd trivial hp

theorem trace_extract (m : Component A) (s : Int) (p : List Int) (h : live encode fuel m) (hs : ok m s)
    (hd : den encode fuel m s p) : (extract encode fuel m s).1 = ans encode fuel m p := by
  by_cases hp : Plain m
  · rw [den_plain hp] at hd
    rw [ans_plain hp, hd]
  · cases m with
    | word m =>
      obtain ⟨m0, h⟩ := h
      obtain ⟨r, c, e, -⟩ := h.extract hs.1
      rw [h.answer hd e]
      simp only [extract, e, settle, if_true]
    | _ => exact absurd trivial hp

theorem trace_score (m : Component A) (s c : Int) (p : List Int) (h : live encode fuel m) (hs : ok m s)
    (hd : den encode fuel m s p) : (symScore encode fuel m s c).1 = cost encode fuel m p c := by
  by_cases hp : Plain m
  · rw [den_plain hp] at hd
    rw [cost_plain hp, hd]
  · cases m with
    | word m =>
      obtain ⟨m0, h⟩ := h
      obtain ⟨x, d, e, -⟩ := h.score hs.1 c
      rw [h.scored hd e]
      simp only [symScore, e, settle]
    | _ => exact absurd trivial hp

theorem trace_kept_next (m : Component A) (s c : Int) (h : live encode fuel m) (hs : ok m s) :
    Hub.Kept ok (den encode fuel) (ans encode fuel) (cost encode fuel) m (next encode fuel m s c).2 := by
  by_cases hp : Plain m
  · obtain ⟨a1, a2, _⟩ := alike_next hp h hs c
    exact a2.kept hp a1 h
  · cases m with
    | word m =>
      obtain ⟨m0, h⟩ := h
      obtain ⟨u, hu, hf, hB, hr, hi0⟩ := h.usable.toLoaded.fit
      obtain ⟨r, I, e1, e2, e3, -⟩ := Word.nextState_total hr hf rfl h.encodes h.enough h.inv hs.1 c
      rw [← h.same] at e1
      simp only [next, e1, settle]
      refine word_kept rfl fun x P hx => ?_
      rw [h.same] at hx ⊢
      exact hx.grows h.usable.toLoaded h.inv e2 e3
    | _ => exact absurd trivial hp

theorem trace_kept_extract (m : Component A) (s : Int) (h : live encode fuel m) (hs : ok m s) :
    Hub.Kept ok (den encode fuel) (ans encode fuel) (cost encode fuel) m (extract encode fuel m s).2 := by
  by_cases hp : Plain m
  · obtain ⟨a1, a2⟩ := alike_extract hp h hs
    exact a2.kept hp a1 h
  · cases m with
    | word m =>
      obtain ⟨m0, h⟩ := h
      obtain ⟨r, c, e, -⟩ := h.extract hs.1
      simp only [extract, e, settle]
      exact word_kept rfl fun x P hx => hx
    | _ => exact absurd trivial hp

theorem trace_kept_score (m : Component A) (s c : Int) (h : live encode fuel m) (hs : ok m s) :
    Hub.Kept ok (den encode fuel) (ans encode fuel) (cost encode fuel) m (symScore encode fuel m s c).2 := by
  by_cases hp : Plain m
  · obtain ⟨a1, a2⟩ := alike_score hp h hs c
    exact a2.kept hp a1 h
  · cases m with
    | word m =>
      obtain ⟨m0, h⟩ := h
      obtain ⟨x, d, e, -⟩ := h.score hs.1 c
      simp only [symScore, e, settle]
      exact word_kept rfl fun x P hx => hx
    | _ => exact absurd trivial hp

/-! ## Updates that change nothing -/

/-- A component whose counts never change: an n-gram model or a static PPM model. -/
def Fixed : Component A → Prop
  | .bigram _ => False
  | .ppm m => m.static = true
  | _ => True

theorem update_fixed {m : Component A} (hf : Fixed m) (s : Int) (cs : List Int) (n : Int) :
    (update encode m s cs n).2 = m := by
  cases m with
  | bigram m => exact absurd hf id
  | ppm m =>
    have hf : m.static = true := hf
    simp only [update, Ppm.updateLMCounts, hf, Bool.true_or, if_true, settle]
  | char m => rfl
  | word m => rfl
  | overflow => rfl
  | crashed f => rfl

theorem update_quiet (m : Component A) (s : Int) (cs : List Int) {n : Int} (hn : n ≤ 0) :
    (update encode m s cs n).2 = m := by
  cases m with
  | bigram m => simp only [update, Bigram.updateLMCounts, if_pos hn]
  | ppm m =>
    simp only [update, Ppm.updateLMCounts, hn, decide_true, Bool.or_true, if_true, settle]
  | char m => rfl
  | word m => rfl
  | overflow => rfl
  | crashed f => rfl

/-- With updates that change nothing, the component models answer by the text typed. -/
theorem traces_of {upd : Component A → Int → List Int → Int → Bool × Component A}
    (hu : ∀ m s cs n, (upd m s cs n).2 = m) :
    { ops A encode fuel with update := upd }.Traces (live encode fuel) ok (den encode fuel) (ans encode fuel)
      (cost encode fuel) where
  closed :=
    { start := (closedOn A encode fuel).start
      next := (closedOn A encode fuel).next
      live_next := (closedOn A encode fuel).live_next
      live_extract := (closedOn A encode fuel).live_extract
      live_score := (closedOn A encode fuel).live_score
      live_update := fun m s cs n h _ => by show live encode fuel (upd m s cs n).2; rw [hu]; exact h
      keep_next := (closedOn A encode fuel).keep_next
      keep_extract := (closedOn A encode fuel).keep_extract
      keep_score := (closedOn A encode fuel).keep_score
      keep_update := fun m s cs n x _ _ hx => by show ok (upd m s cs n).2 x; rw [hu]; exact hx }
  start := trace_start
  next := trace_next
  extract := trace_extract
  score m s c p h hs hd _ := trace_score m s c p h hs hd
  kept_next := trace_kept_next
  kept_extract := trace_kept_extract
  kept_score := trace_kept_score
  kept_update m s cs n _ _ := by
    show Hub.Kept ok (den encode fuel) (ans encode fuel) (cost encode fuel) m (upd m s cs n).2
    rw [hu]
    exact .refl m

end Mozolm.System
