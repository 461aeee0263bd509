import Verif.System.Model
import Verif.Hub.Guard
import Verif.Bigram.Lemmas
import Verif.Bigram.Reach
import Verif.Ppm.Ops
import Verif.Props.NGram
import Verif.Props.WordCache

/-!
# The component models are sound at their own states

`live`: a component that works; `ok`: its states.
-/

namespace Mozolm.System
variable {A : Arith} {encode : Int → Str} {fuel : Nat}

/-! ## Bigram -/

theorem bigram_extract {m : Bigram.Model} (h : Bigram.WF m) (A : Arith) (encode : Int → Str) (s : Int) :
    ∃ r, Bigram.extractLMScores A encode m s = .ok r ∧ r.probs.length = r.symbols.length := by
  have hl := h.fix_lt s
  obtain ⟨nrm, h1⟩ := exists_getElem?_of_lt (l := m.norm) (i := m.fix s) (by rw [h.normLen]; exact hl)
  obtain ⟨row, h2⟩ := exists_getElem?_of_lt (l := m.counts) (i := m.fix s) (by rw [h.rowsLen]; exact hl)
  have h3 := Bigram.scoreLoop_eq A encode m nrm row (i := 0) (us := m.utf8) rfl
    (by rw [h.rowLen row (List.mem_of_getElem? h2)])
  have e : Bigram.extractLMScores A encode m s = (Bigram.scoreLoop A encode m nrm 0 row >>= fun l =>
      .ok { symbols := l.map Prod.fst, probs := l.map Prod.snd, norm := A.ofInt nrm }) := by
    simp only [Bigram.extractLMScores, h1, h2]
  rw [h3, ok_bind] at e
  exact ⟨_, e, by simp⟩

theorem bigram_score {m : Bigram.Model} (h : Bigram.WF m) (A : Arith) (s c : Int) :
    ∃ r, Bigram.symLMScore A m s c = .ok r := by
  have hl := h.fix_lt s
  obtain ⟨nrm, h1⟩ := exists_getElem?_of_lt (l := m.norm) (i := m.fix s) (by rw [h.normLen]; exact hl)
  obtain ⟨row, h2⟩ := exists_getElem?_of_lt (l := m.counts) (i := m.fix s) (by rw [h.rowsLen]; exact hl)
  unfold Bigram.symLMScore
  simp only
  split
  · next hv =>
    simp only [Bigram.Model.validState, Bool.and_eq_true, decide_eq_true_eq] at hv
    obtain ⟨x, h3⟩ := exists_getElem?_of_lt (l := row) (i := (Bigram.nextState m (m.fix s) c).toNat)
      (by rw [h.rowLen row (List.mem_of_getElem? h2)]; omega)
    simp only [h1, h2, h3]
    exact ⟨_, rfl⟩
  · exact ⟨_, rfl⟩

theorem moves_length (utf8 : List Int) (cs : List Int) : ∀ i, (Bigram.moves utf8 i cs).length ≤ cs.length := by
  induction cs with
  | nil => intro i; simp [Bigram.moves]
  | cons c cs ih =>
    intro i
    simp only [Bigram.moves]
    split
    · have := ih 0; simp only [List.length_cons]; omega
    · next j _ => have := ih j; simp only [List.length_cons]; omega

/-- An update of the bigram model faults only if some count can overflow. -/
theorem bigram_update {m : Bigram.Model} (h : Bigram.WF m) (s : Int) (cs : List Int) (n : Int) :
    (∃ m', Bigram.updateLMCounts m s cs n = .ok (true, m') ∧ Bigram.WF m') ∨
    ∃ f, Bigram.updateLMCounts m s cs n = .error f ∧ bigramRoom m cs n = false := by
  unfold Bigram.updateLMCounts
  by_cases hn : n ≤ 0
  · rw [if_pos hn]; exact .inl ⟨m, rfl, h⟩
  · rw [if_neg hn]
    obtain ⟨h1, h2⟩ := Bigram.updateLoop_spec (cs := cs) h (h.fix_lt s) (n := n) (by omega)
    cases e : Bigram.updateLoop m n (m.fix s) cs with
    | ok m' => exact .inl ⟨m', rfl, (h1 m' e).1⟩
    | error f =>
      refine .inr ⟨f, rfl, ?_⟩
      by_contra hroom
      simp only [Bool.not_eq_false, bigramRoom, List.all_eq_true, decide_eq_true_eq] at hroom
      obtain ⟨m', e'⟩ := h2 (fun a b x hx => by
        unfold Bigram.Model.count at hx
        cases hr : m.counts[a]? with
        | none => rw [hr] at hx; cases hx
        | some row =>
          rw [hr] at hx
          have := hroom row (List.mem_of_getElem? hr) x (List.mem_of_getElem? hx)
          have hc : ((Bigram.moves m.utf8 (m.fix s) cs).count (a, b) : Int) ≤ cs.length := by
            have := List.count_le_length (a := (a, b)) (l := Bigram.moves m.utf8 (m.fix s) cs)
            have := moves_length m.utf8 cs (m.fix s)
            omega
          have := Int.mul_le_mul_of_nonneg_left hc (show 0 ≤ n by omega)
          omega)
      rw [e'] at e; cases e

/-! ## The character n-gram model -/

/-- A character n-gram model that works. -/
structure CharLive (fuel : Nat) (m : NGram.Model A.C) : Prop where
  closed : NGram.Closed m.fst
  enough : Word.Enough m.fst fuel
  unigram : 0 ≤ m.unigram ∧ m.unigram < m.fst.states.length

theorem matchFirst_lt {f : Fst A.C} (hc : NGram.Closed f) {s : Nat} {st : FState A.C} (hst : f.states[s]? = some st)
    {label : Int} {a : A.C × Int} (h : Fst.matchFirst A.one st s label = some a) :
    0 ≤ a.2 ∧ a.2 < f.states.length := by
  have hs := lt_of_getElem?_eq_some hst
  unfold Fst.matchFirst at h
  split at h
  · injection h with h; subst h; exact ⟨by simp, by simpa using hs⟩
  · split at h
    · next x hx =>
      injection h with h; subst h
      have := hc.2 st (List.mem_of_getElem? hst) x (List.mem_of_find?_eq_some hx)
      simp only
      omega
    · cases h

theorem nextModelState_total {f : Fst A.C} (hc : NGram.Closed f) {rank : Nat → Nat}
    (hr : ∀ s w t, NGram.IsBackoff f s w t → rank t < rank s) {unigram : Int}
    (hu : 0 ≤ unigram ∧ unigram < f.states.length) (label : Int) :
    ∀ (k s fuel : Nat), rank s < k → s < f.states.length → k + 1 ≤ fuel →
      ∃ r, NGram.nextModelState A f unigram label fuel s = .ok r ∧ 0 ≤ r ∧ r < f.states.length := by
  intro k
  induction k with
  | zero => intro s fuel h; omega
  | succ k ih =>
    intro s fuel hk hs hfu
    obtain ⟨fuel, rfl⟩ : ∃ n, fuel = n + 1 := ⟨fuel - 1, by omega⟩
    obtain ⟨st, hst⟩ := exists_getElem?_of_lt hs
    have hn1 : ¬ ((s : Int) = -1) := by omega
    simp only [NGram.nextModelState, if_neg hn1, NGram.state?_nat, hst]
    cases hm : Fst.matchFirst A.one st s label with
    | some a => exact ⟨a.2, rfl, matchFirst_lt hc hst hm⟩
    | none =>
      simp only
      rcases NGram.getBackoff_spec (A := A) f hs with ⟨w, t, hb, hg⟩ | ⟨_, hg⟩
      · simp only [hg, ok_bind]
        have := hr _ _ _ hb
        exact ih t fuel (by omega) (hb.lt hc) (by omega)
      · simp only [hg, ok_bind]
        obtain ⟨fuel, rfl⟩ : ∃ n, fuel = n + 1 := ⟨fuel - 1, by omega⟩
        exact ⟨unigram, by simp [NGram.nextModelState], hu⟩

theorem labelLoop_total {f : Fst A.C} (hc : NGram.Closed f) {rank : Nat → Nat}
    (hr : ∀ s w t, NGram.IsBackoff f s w t → rank t < rank s) (label : Int) :
    ∀ (k s fuel : Nat) (acc : A.C), rank s < k → s < f.states.length → k + 1 ≤ fuel →
      ∃ r, NGram.labelLoop A f label fuel s acc = .ok r := by
  intro k
  induction k with
  | zero => intro s fuel acc h; omega
  | succ k ih =>
    intro s fuel acc hk hs hfu
    obtain ⟨fuel, rfl⟩ : ∃ n, fuel = n + 1 := ⟨fuel - 1, by omega⟩
    obtain ⟨st, hst⟩ := exists_getElem?_of_lt hs
    have hn1 : ¬ ((s : Int) < 0) := by omega
    simp only [NGram.labelLoop, if_neg hn1, NGram.state?_nat, hst]
    cases hm : Fst.matchFirst A.one st s label with
    | some a => exact ⟨_, rfl⟩
    | none =>
      simp only
      rcases NGram.getBackoff_spec (A := A) f hs with ⟨w, t, hb, hg⟩ | ⟨_, hg⟩
      · simp only [hg, ok_bind]
        have := hr _ _ _ hb
        exact ih t fuel _ (by omega) (hb.lt hc) (by omega)
      · simp only [hg, ok_bind]
        obtain ⟨fuel, rfl⟩ : ∃ n, fuel = n + 1 := ⟨fuel - 1, by omega⟩
        exact ⟨A.inf, by simp [NGram.labelLoop]⟩

theorem labelCost_total {f : Fst A.C} (hc : NGram.Closed f) (he : Word.Enough f fuel) {s : Nat}
    (hs : s < f.states.length) (label : Int) : ∃ r, NGram.labelCostInState A f fuel s label = .ok r := by
  obtain ⟨rank, hr, hfu⟩ := he
  have := hfu s hs
  unfold NGram.labelCostInState
  split
  · unfold NGram.finalCostInState
    obtain ⟨st, hst⟩ := exists_getElem?_of_lt hs
    simp only [NGram.state?_nat, hst]
    split
    · rcases NGram.finalLoop_spec (A := A) f hc hr (rank s + 1) s (by omega) hs fuel (by omega) A.one with
        ⟨_, _, _, _, _, _, _, _, _, _, e⟩ | ⟨_, e⟩
      · exact ⟨_, e⟩
      · exact ⟨_, e⟩
    · exact ⟨_, rfl⟩
  · exact labelLoop_total hc hr label (rank s + 1) s fuel _ (by omega) hs (by omega)

theorem costsOf_total {f : Fst A.C} (hc : NGram.Closed f) (he : Word.Enough f fuel) {s : Nat}
    (hs : s < f.states.length) (ls : List Int) :
    ∃ r, NGram.costsOf A f fuel s ls = .ok r ∧ r.length = ls.length := by
  induction ls with
  | nil => exact ⟨[], rfl, rfl⟩
  | cons l ls ih =>
    obtain ⟨c, e1⟩ := labelCost_total hc he hs l
    obtain ⟨cs, e2, e3⟩ := ih
    exact ⟨c :: cs, by simp only [NGram.costsOf, e1, e2, ok_bind], by simp [e3]⟩

theorem check_nat (m : NGram.Model A.C) (s : Nat) : NGram.checkCurrentState m s = s := by
  unfold NGram.checkCurrentState
  rw [if_neg (by omega)]

theorem CharLive.next {m : NGram.Model A.C} (h : CharLive fuel m) (encode : Int → Str) (c : Int) {s : Nat}
    (hs : s < m.fst.states.length) :
    ∃ r, NGram.nextState encode fuel m s c = .ok r ∧ 0 ≤ r ∧ r < m.fst.states.length := by
  obtain ⟨rank, hr, hfu⟩ := h.enough
  have := hfu s hs
  simp only [NGram.nextState, check_nat]
  exact nextModelState_total h.closed hr h.unigram _ (rank s + 1) s fuel (by omega) hs (by omega)

theorem CharLive.extract {m : NGram.Model A.C} (h : CharLive fuel m) {s : Nat} (hs : s < m.fst.states.length) :
    ∃ r, NGram.extractLMScores fuel m s = .ok r ∧ r.probs.length = r.symbols.length := by
  obtain ⟨cs, e1, e2⟩ := costsOf_total h.closed h.enough hs (0 :: m.symbols.tail.map Prod.fst)
  have hne : cs ≠ [] := by rintro rfl; simp at e2
  obtain ⟨nm, e3, e4⟩ := Word.softmax_total hne
  refine ⟨{ symbols := [] :: (m.symbols.tail.map Prod.fst).map m.symbols.findSymbol
            probs := nm.map A.prob, norm := A.ofInt 1 }, ?_, ?_⟩
  · simp only [NGram.extractLMScores, check_nat, e1, e3, ok_bind]
  · simp only [List.length_map, List.length_cons, e4, e2]

/-! ## The word n-gram model -/

/-- A word n-gram model that works. -/
structure WordLive (encode : Int → Str) (fuel : Nat) (m m0 : Word.Model A.C) : Prop where
  usable : Word.Usable m0
  encodes : Word.Encodes encode m0.static.base.symbols m0.static.base.oov
  enough : Word.Enough m0.static.base.fst fuel
  same : m.static = m0.static
  inv : Word.Inv m0.static (Word.sortedWords m0.static.base.symbols m0.static.base.oov) m.imp
  cache : Word.CacheInv m0.static m.cache

theorem WordLive.next {m m0 : Word.Model A.C} (h : WordLive encode fuel m m0) {s : Int} (hs : 0 ≤ s) (c : Int) :
    ∃ r I, Word.nextState A encode fuel m.static m.imp s c = .ok (r, I) ∧ 0 ≤ r ∧ r < I.total ∧
      m.imp.total ≤ I.total ∧ WordLive encode fuel { m with imp := I } m0 := by
  obtain ⟨u, hu, hf, hB, hr, hi0⟩ := h.usable.toLoaded.fit
  obtain ⟨r, I, e1, e2, e3, e4, e5⟩ := Word.nextState_total hr hf rfl h.encodes h.enough h.inv hs c
  rw [← h.same] at e1
  refine ⟨r, I, e1, e4, e5, ?_, ⟨h.usable, h.encodes, h.enough, h.same, e2, h.cache⟩⟩
  have := e3.infos.length_le
  rw [e2.wf.total, h.inv.wf.total, e3.explicit]
  omega

theorem WordLive.extract {m m0 : Word.Model A.C} (h : WordLive encode fuel m m0) {s : Int} (hs : 0 ≤ s) :
    ∃ r c, Word.extractLMScores A fuel m s (Word.noScores A) = .ok (true, r, c) ∧
      r.probs.length = r.symbols.length ∧ WordLive encode fuel { m with cache := c } m0 := by
  obtain ⟨hmax, -⟩ := h.usable.toLoaded.cache h.usable.labels h.usable.hiOrder
  obtain ⟨r, ht, hl, g1, -⟩ := Word.extract_any h.usable h.enough h.inv (s := s) (by omega) (Word.noScores A)
  simp only [Word.noScores, List.length_nil] at hl
  obtain ⟨c, e1⟩ := g1 m0.static.maxCache m.cache hmax h.cache
  have hm : m = ⟨m0.static, m.imp, m.cache⟩ := by rw [← h.same]
  have e1 : Word.extractLMScores A fuel m s (Word.noScores A) = .ok (r.1, r.2, c) := by rw [hm]; exact e1
  have hc : Word.CacheInv m0.static c := by
    have hu : Word.Uses encode fuel m0.static m.imp m.cache m.imp c := by
      refine .extract (.refl _ _) (s := s) (by omega) ?_ (resp := Word.noScores A) (resp' := r.2) (b := r.1)
      rw [← hm]; exact e1
    exact (hu.inv h.usable h.encodes h.enough h.inv h.cache).2.2
  rw [ht] at e1
  exact ⟨r.2, c, e1, by omega, ⟨h.usable, h.encodes, h.enough, h.same, h.inv, hc⟩⟩

theorem WordLive.score {m m0 : Word.Model A.C} (h : WordLive encode fuel m m0) {s : Int} (hs : 0 ≤ s) (sym : Int) :
    ∃ x c, Word.symLMScore A fuel m s sym = .ok (x, c) ∧ WordLive encode fuel { m with cache := c } m0 := by
  obtain ⟨r, c, e1, e2, e3⟩ := h.extract hs
  obtain ⟨x, hx⟩ := Word.findScore_total A sym r.symbols r.probs (by omega)
  exact ⟨x, c, by simp only [Word.symLMScore, e1, ok_bind, if_true, hx], e3⟩

/-! ## All components -/

/-- A component that works. -/
def live (encode : Int → Str) (fuel : Nat) : Component A → Prop
  | .bigram m => Bigram.WF m
  | .ppm m => ∃ Ok ord V u, Ppm.Inv A Ok m ord V u
  | .char m => CharLive fuel m
  | .word m => ∃ m0, WordLive encode fuel m m0
  | .overflow => True
  | .crashed _ => False

/-- The states of a component. -/
def ok : Component A → Int → Prop
  | .bigram _, _ => True
  | .ppm m, s => 0 ≤ s ∧ s < m.core.fst.states.length
  | .char m, s => 0 ≤ s ∧ s < m.fst.states.length
  | .word m, s => 0 ≤ s ∧ s < m.imp.total
  | .overflow, _ => True
  | .crashed _, _ => True

theorem toNat_eq {s : Int} (h : 0 ≤ s) : s = (s.toNat : Int) := (Int.toNat_of_nonneg h).symm

section ppm
variable {m : Ppm.Model A} {Ok : A.C → Prop} {ord : Nat → Nat} {V u : Nat}

theorem ppm_next (h : Ppm.Inv A Ok m ord V u) (encode : Int → Str) (c : Int) {s : Int} (h0 : 0 ≤ s)
    (h1 : s < m.core.fst.states.length) :
    ∃ (t : Nat) (m' : Ppm.Model A), Ppm.nextState encode s c m = .ok ((t : Int), m') ∧ Ppm.Inv A Ok m' ord V u ∧
      m'.core = m.core ∧ t < m.core.fst.states.length := by
  obtain ⟨s, rfl⟩ : ∃ n : Nat, s = n := ⟨_, toNat_eq h0⟩
  obtain ⟨t, _, ht, hq⟩ := Ppm.nextState_query (g := m.sig) h.laws h.wf h.labels encode c (s := s) (by simpa [Ppm.Model.sig] using h1)
  obtain ⟨m', e1, e2, e3⟩ := hq m rfl h.cache
  refine ⟨t, m', e1, ?_, e2.core, ht⟩
  exact h.after (h := []) (by rw [e2.core]; exact .nil) e2.params e3

theorem ppm_extract (h : Ppm.Inv A Ok m ord V u) {s : Int} (h0 : 0 ≤ s) (h1 : s < m.core.fst.states.length) :
    ∃ (r : LMScores A.D) (m' : Ppm.Model A), Ppm.extractLMScores s m = .ok (some r, m') ∧ Ppm.Inv A Ok m' ord V u ∧
      m'.core = m.core ∧ r.probs.length = r.symbols.length := by
  obtain ⟨s, rfl⟩ : ∃ n : Nat, s = n := ⟨_, toNat_eq h0⟩
  have hs : s < m.core.fst.states.length := by omega
  obtain ⟨d, hd, hsz⟩ := h.wf.ideal h.laws m.alpha s hs
  obtain ⟨r, hr, _, hp, hsy⟩ := Ppm.fill_ok hsz m.symbols
  obtain ⟨m', e1, e2, e3⟩ := Ppm.extract_query (g := m.sig) h.laws h.wf hs hd hr m rfl h.cache
  refine ⟨r, m', e1, h.after (h := []) (by rw [e2.core]; exact .nil) e2.params e3, e2.core, ?_⟩
  rw [hp, hsy]
  simp only [List.length_map, List.length_cons, List.length_range]
  exact hsz.2.2

theorem ppm_score (h : Ppm.Inv A Ok m ord V u) (encode : Int → Str) (c : Int) {s : Int} (h0 : 0 ≤ s)
    (h1 : s < m.core.fst.states.length) :
    ∃ (w : A.C) (m' : Ppm.Model A), Ppm.symLMScore encode s c m = .ok (w, m') ∧ Ppm.Inv A Ok m' ord V u ∧
      m'.core = m.core := by
  obtain ⟨s, rfl⟩ : ∃ n : Nat, s = n := ⟨_, toNat_eq h0⟩
  have hs : s < m.core.fst.states.length := by omega
  obtain ⟨d, hd, hsz⟩ := h.wf.ideal h.laws m.alpha s hs
  obtain ⟨w, hw, _⟩ := Ppm.symLMScore_query (g := m.sig) h.laws h.wf h.labels encode c hs hd
  obtain ⟨m', e1, e2, e3⟩ := hw m rfl h.cache
  exact ⟨w, m', e1, h.after (h := []) (by rw [e2.core]; exact .nil) e2.params e3, e2.core⟩

theorem ppm_update (h : Ppm.Inv A Ok m ord V u) (encode : Int → Str) (cs : List Int) (n : Int) {s : Int} (h0 : 0 ≤ s)
    (h1 : s < m.core.fst.states.length) :
    ∃ (m' : Ppm.Model A) (ord' : Nat → Nat), Ppm.updateLMCounts encode s cs n m = .ok (true, m') ∧
      Ppm.Inv A Ok m' ord' V u ∧ m.core.fst.states.length ≤ m'.core.fst.states.length := by
  obtain ⟨s, rfl⟩ : ∃ n : Nat, s = n := ⟨_, toNat_eq h0⟩
  have hs : s < m.core.fst.states.length := by omega
  obtain ⟨c', ord', l, hobs, _, heff⟩ := Ppm.updateLMCounts_effect (g := m.sig) h.laws h.wf h.orders h.labels encode hs cs n
  obtain ⟨m', e1, e2, e3, e4⟩ := heff m rfl h.cache
  subst e3
  exact ⟨m', ord', e1, h.after hobs e2 e4, hobs.len⟩

end ppm

/-- The component models are closed. -/
theorem closedOn (A : Arith) (encode : Int → Str) (fuel : Nat) :
    (ops A encode fuel).ClosedOn (live encode fuel) ok where
  start m h := by
    cases m with
    | bigram m => trivial
    | ppm m =>
      obtain ⟨_, _, _, _, h⟩ := h
      have := h.wf.start_lt
      exact ⟨Int.natCast_nonneg _, by simpa [ops, start] using this⟩
    | char m =>
      have := h.closed.1
      exact ⟨Int.le_refl _, by show (0 : Int) < _; omega⟩
    | word m =>
      obtain ⟨m0, h⟩ := h
      have h1 := h.usable.closed.1
      have h2 := h.inv.wf.total
      have h3 := h.inv.explicit
      refine ⟨Int.natCast_nonneg _, ?_⟩
      show (m.static.base.fst.start : Int) < m.imp.total
      rw [h.same]; omega
    | overflow => trivial
    | crashed f => trivial
  next m s c h hs := by
    cases m with
    | bigram m => trivial
    | ppm m =>
      obtain ⟨_, _, _, _, h⟩ := h
      obtain ⟨t, m', e, -, e2, e3⟩ := ppm_next h encode c hs.1 hs.2
      simp only [ops, next, e, settle, ok, e2]
      exact ⟨by omega, by omega⟩
    | char m =>
      obtain ⟨s, rfl⟩ : ∃ n : Nat, s = n := ⟨_, toNat_eq hs.1⟩
      obtain ⟨r, e, e2⟩ := h.next encode c (s := s) (by have := hs.2; omega)
      simp only [ops, next, e, settle, ok]
      exact e2
    | word m =>
      obtain ⟨m0, h⟩ := h
      obtain ⟨r, I, e, e1, e2, e3, e4⟩ := h.next hs.1 c
      simp only [ops, next, e, settle, ok]
      exact ⟨e1, e2⟩
    | overflow => trivial
    | crashed f => trivial
  live_next m s c h hs := by
    cases m with
    | bigram m => exact h
    | ppm m =>
      obtain ⟨_, _, _, _, h⟩ := h
      obtain ⟨t, m', e, e1, e2, e3⟩ := ppm_next h encode c hs.1 hs.2
      simp only [ops, next, e, settle]
      exact ⟨_, _, _, _, e1⟩
    | char m =>
      obtain ⟨s, rfl⟩ : ∃ n : Nat, s = n := ⟨_, toNat_eq hs.1⟩
      obtain ⟨r, e, e2⟩ := h.next encode c (s := s) (by have := hs.2; omega)
      simp only [ops, next, e, settle]
      exact h
    | word m =>
      obtain ⟨m0, h⟩ := h
      obtain ⟨r, I, e, e1, e2, e3, e4⟩ := h.next hs.1 c
      simp only [ops, next, e, settle]
      exact ⟨m0, e4⟩
    | overflow => trivial
    | crashed f => exact h
  live_extract m s h hs := by
    cases m with
    | bigram m =>
      obtain ⟨r, e, _⟩ := bigram_extract h A encode s
      simp only [ops, extract, e, settle]
      exact h
    | ppm m =>
      obtain ⟨_, _, _, _, h⟩ := h
      obtain ⟨r, m', e, e1, e2, e3⟩ := ppm_extract h hs.1 hs.2
      simp only [ops, extract, e, settle]
      exact ⟨_, _, _, _, e1⟩
    | char m =>
      obtain ⟨s, rfl⟩ : ∃ n : Nat, s = n := ⟨_, toNat_eq hs.1⟩
      obtain ⟨r, e, _⟩ := h.extract (s := s) (by have := hs.2; omega)
      simp only [ops, extract, e, settle]
      exact h
    | word m =>
      obtain ⟨m0, h⟩ := h
      obtain ⟨r, c, e, _, e1⟩ := h.extract hs.1
      simp only [ops, extract, e, settle]
      exact ⟨m0, e1⟩
    | overflow => trivial
    | crashed f => exact h
  live_score m s c h hs := by
    cases m with
    | bigram m =>
      obtain ⟨r, e⟩ := bigram_score h A s c
      simp only [ops, symScore, e, settle]
      exact h
    | ppm m =>
      obtain ⟨_, _, _, _, h⟩ := h
      obtain ⟨w, m', e, e1, e2⟩ := ppm_score h encode c hs.1 hs.2
      simp only [ops, symScore, e, settle]
      exact ⟨_, _, _, _, e1⟩
    | char m =>
      obtain ⟨s, rfl⟩ : ∃ n : Nat, s = n := ⟨_, toNat_eq hs.1⟩
      obtain ⟨r, e⟩ := labelCost_total h.closed h.enough (s := s) (by have := hs.2; omega) (NGram.symLabel encode m c)
      have e : NGram.symLMScore encode fuel m s c = .ok r := e
      simp only [ops, symScore, e, settle]
      exact h
    | word m =>
      obtain ⟨m0, h⟩ := h
      obtain ⟨x, d, e, e1⟩ := h.score hs.1 c
      simp only [ops, symScore, e, settle]
      exact ⟨m0, e1⟩
    | overflow => trivial
    | crashed f => exact h
  live_update m s cs n h hs := by
    cases m with
    | bigram m =>
      rcases bigram_update h s cs n with ⟨m', e, e1⟩ | ⟨f, e, e1⟩
      · simp only [ops, update, e]; exact e1
      · simp only [ops, update, e, e1]; trivial
    | ppm m =>
      obtain ⟨_, _, _, _, h⟩ := h
      obtain ⟨m', ord', e, e1, e2⟩ := ppm_update h encode cs n hs.1 hs.2
      simp only [ops, update, e, settle]
      exact ⟨_, _, _, _, e1⟩
    | char m => exact h
    | word m => exact h
    | overflow => trivial
    | crashed f => exact h
  keep_next m s c x h hs hx := by
    cases m with
    | bigram m => trivial
    | ppm m =>
      obtain ⟨_, _, _, _, h⟩ := h
      obtain ⟨t, m', e, e1, e2, e3⟩ := ppm_next h encode c hs.1 hs.2
      simp only [ops, next, e, settle, ok, e2]
      exact hx
    | char m =>
      obtain ⟨s, rfl⟩ : ∃ n : Nat, s = n := ⟨_, toNat_eq hs.1⟩
      obtain ⟨r, e, e2⟩ := h.next encode c (s := s) (by have := hs.2; omega)
      simp only [ops, next, e, settle]
      exact hx
    | word m =>
      obtain ⟨m0, h⟩ := h
      obtain ⟨r, I, e, e1, e2, e3, e4⟩ := h.next hs.1 c
      simp only [ops, next, e, settle, ok]
      exact ⟨hx.1, by have := hx.2; omega⟩
    | overflow => trivial
    | crashed f => trivial
  keep_extract m s x h hs hx := by
    cases m with
    | bigram m =>
      obtain ⟨r, e, _⟩ := bigram_extract h A encode s
      simp only [ops, extract, e, settle]
      trivial
    | ppm m =>
      obtain ⟨_, _, _, _, h⟩ := h
      obtain ⟨r, m', e, e1, e2, e3⟩ := ppm_extract h hs.1 hs.2
      simp only [ops, extract, e, settle, ok, e2]
      exact hx
    | char m =>
      obtain ⟨s, rfl⟩ : ∃ n : Nat, s = n := ⟨_, toNat_eq hs.1⟩
      obtain ⟨r, e, _⟩ := h.extract (s := s) (by have := hs.2; omega)
      simp only [ops, extract, e, settle]
      exact hx
    | word m =>
      obtain ⟨m0, h⟩ := h
      obtain ⟨r, c, e, _, e1⟩ := h.extract hs.1
      simp only [ops, extract, e, settle]
      exact hx
    | overflow => trivial
    | crashed f => trivial
  keep_score m s c x h hs hx := by
    cases m with
    | bigram m =>
      obtain ⟨r, e⟩ := bigram_score h A s c
      simp only [ops, symScore, e, settle]
      trivial
    | ppm m =>
      obtain ⟨_, _, _, _, h⟩ := h
      obtain ⟨w, m', e, e1, e2⟩ := ppm_score h encode c hs.1 hs.2
      simp only [ops, symScore, e, settle, ok, e2]
      exact hx
    | char m =>
      obtain ⟨s, rfl⟩ : ∃ n : Nat, s = n := ⟨_, toNat_eq hs.1⟩
      obtain ⟨r, e⟩ := labelCost_total h.closed h.enough (s := s) (by have := hs.2; omega) (NGram.symLabel encode m c)
      have e : NGram.symLMScore encode fuel m s c = .ok r := e
      simp only [ops, symScore, e, settle]
      exact hx
    | word m =>
      obtain ⟨m0, h⟩ := h
      obtain ⟨y, d, e, e1⟩ := h.score hs.1 c
      simp only [ops, symScore, e, settle]
      exact hx
    | overflow => trivial
    | crashed f => trivial
  keep_update m s cs n x h hs hx := by
    cases m with
    | bigram m =>
      rcases bigram_update h s cs n with ⟨m', e, e1⟩ | ⟨f, e, e1⟩
      · simp only [ops, update, e]; trivial
      · simp only [ops, update, e, e1]; trivial
    | ppm m =>
      obtain ⟨_, _, _, _, h⟩ := h
      obtain ⟨m', ord', e, e1, e2⟩ := ppm_update h encode cs n hs.1 hs.2
      simp only [ops, update, e, settle, ok]
      exact ⟨hx.1, by have := hx.2; omega⟩
    | char m => exact hx
    | word m => exact hx
    | overflow => trivial
    | crashed f => trivial

/-- A working component answers, with as many symbols as probabilities. -/
theorem extract_answers {m : Component A} {s : Int} (h : live encode fuel m) (hs : ok m s)
    (hov : m ≠ .overflow) : ∃ r, (extract encode fuel m s).1 = some r ∧ r.probs.length = r.symbols.length := by
  cases m with
  | bigram m =>
    obtain ⟨r, e, e2⟩ := bigram_extract h A encode s
    exact ⟨r, by simp only [extract, e, settle], e2⟩
  | ppm m =>
    obtain ⟨_, _, _, _, h⟩ := h
    obtain ⟨r, m', e, e1, e2, e3⟩ := ppm_extract h hs.1 hs.2
    exact ⟨r, by simp only [extract, e, settle], e3⟩
  | char m =>
    obtain ⟨s, rfl⟩ : ∃ n : Nat, s = n := ⟨_, toNat_eq hs.1⟩
    obtain ⟨r, e, e2⟩ := h.extract (s := s) (by have := hs.2; omega)
    exact ⟨r, by simp only [extract, e, settle], e2⟩
  | word m =>
    obtain ⟨m0, h⟩ := h
    obtain ⟨r, c, e, e2, e1⟩ := h.extract hs.1
    exact ⟨r, by simp only [extract, e, settle, if_true], e2⟩
  | overflow => exact absurd rfl hov
  | crashed f => exact absurd h id

/-- A working component accepts updates. -/
theorem update_accepted {m : Component A} {s : Int} (h : live encode fuel m) (hs : ok m s) (cs : List Int) (n : Int) :
    (update encode m s cs n).1 = true := by
  cases m with
  | bigram m =>
    rcases bigram_update h s cs n with ⟨m', e, e1⟩ | ⟨f, e, e1⟩
    · simp only [update, e]
    · simp only [update, e]
  | ppm m =>
    obtain ⟨_, _, _, _, h⟩ := h
    obtain ⟨m', ord', e, e1, e2⟩ := ppm_update h encode cs n hs.1 hs.2
    simp only [update, e, settle]
  | char m => rfl
  | word m => rfl
  | overflow => rfl
  | crashed f => exact absurd h id

end Mozolm.System
