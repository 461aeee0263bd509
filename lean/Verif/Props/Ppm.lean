import Verif.Ppm.Ops

/-!
# C14, C24-C28: the PPM model (any arithmetic)

`Initial A Ok o m`: `Read` with options `o` succeeded and left the model in state `m`.
`Run encode m tr m'`: the calls in `tr` turned `m` into `m'`.
`CountLaws A Ok beta` collects what the arithmetic must satisfy; `PpmNumeric.lean` shows that exact
arithmetic does.
-/

namespace Mozolm.Ppm
variable {A : Arith} {Ok : A.C → Prop}

/-- The length of a context: how many times one can back off from it. -/
inductive Length {C : Type} (f : Fst C) : Nat → Nat → Prop
  | root {s} : backoff f s = none → Length f s 0
  | longer {s b k} : backoff f s = some b → Length f b k → Length f s (k + 1)

theorem WF.length {f : Fst A.C} {ord : Nat → Nat} {mo : Int} {V u : Nat} (wf : WF A Ok f ord mo V u) :
    ∀ s, s < f.states.length → Length f s (ord s) := by
  have key : ∀ k s, ord s = k → s < f.states.length → Length f s k := by
    intro k
    induction k with
    | zero =>
      intro s hk hs
      cases hb : backoff f s with
      | none => exact .root hb
      | some b => have := (wf.of_backoff hb).2.2.2; omega
    | succ k ih =>
      intro s hk hs
      have hu : s ≠ u := by intro e; rw [e, wf.ord_u] at hk; cases hk
      obtain ⟨b, hb, hbl, ho⟩ := wf.backoff_node hs hu
      exact .longer hb (ih b (by omega) hbl)
  exact fun s hs => key _ s rfl hs

theorem Length.unique {C : Type} {f : Fst C} {s k k' : Nat} (h : Length f s k) (h' : Length f s k') : k = k' := by
  induction h generalizing k' with
  | root hb =>
    cases h' with
    | root => rfl
    | longer hb' _ => rw [hb] at hb'; cases hb'
  | longer hb _ ih =>
    cases h' with
    | root hb' => rw [hb] at hb'; cases hb'
    | longer hb' h' => rw [hb] at hb'; injection hb' with e; subst e; rw [ih h']

/-! ## C24: the cache cannot be seen -/

/-- `Read` with two cache sizes gives models that differ in nothing but the cache. -/
theorem read_sig {o o' : Options A.D} (h : o' = { o with maxCache := o'.maxCache }) {src : Source A.C}
    {vocab : Option (Option (List (List Str)))} {m n : Model A} (hm : read A o src vocab = pure m)
    (hn : read A o' src vocab = pure n) : n.sig = m.sig := by
  have e1 : (initParameters A o').maxOrder = (initParameters A o).maxOrder := by rw [h]; rfl
  have e2 : (initParameters A o').alpha = (initParameters A o).alpha := by rw [h]; rfl
  have e3 : (initParameters A o').beta = (initParameters A o).beta := by rw [h]; rfl
  have e4 : (initParameters A o').static = (initParameters A o).static := by rw [h]; rfl
  unfold read at hm hn
  obtain ⟨r, h1, hm⟩ := Res.bind_eq.mp hm
  obtain ⟨r', h1', hn⟩ := Res.bind_eq.mp hn
  have := Res.pure_inj (h1.symm.trans h1'); subst this
  obtain ⟨r2, h2, hm⟩ := Res.bind_eq.mp hm
  obtain ⟨r2', h2', hn⟩ := Res.bind_eq.mp hn
  have := Res.pure_inj (h2.symm.trans h2'); subst this
  obtain ⟨c, h3, hm⟩ := Res.bind_eq.mp hm
  obtain ⟨c', h3', hn⟩ := Res.bind_eq.mp hn
  rw [e1, e4] at h3'
  have := Res.pure_inj (h3.symm.trans h3'); subst this
  have hm := Res.pure_inj hm
  have hn := Res.pure_inj hn
  rw [← hm, ← hn]
  simp only [Model.sig, e2, e3, e4]

/-- the same model read with another cache size is initial too, for the same invariant -/
theorem Initial.inv_size {o o' : Options A.D} (h : o' = { o with maxCache := o'.maxCache })
    (L : CountLaws A Ok (initParameters A o).beta) {src : Source A.C} {vocab : Option (Option (List (List Str)))}
    {m n : Model A} (hi : Initial A Ok o m) (hm : read A o src vocab = pure m)
    (hn : read A o' src vocab = pure n) : ∃ ord V u, Inv A Ok m ord V u ∧ Inv A Ok n ord V u := by
  obtain ⟨ord, V, u, hinv⟩ := hi.inv L
  have hs := read_sig h hm hn
  refine ⟨ord, V, u, hinv, ?_⟩
  have hc := sig_core hs
  have hempty : n.cache = [] ∧ n.index = List.replicate n.core.fst.states.length (-1) ∧ n.core.maxOrder ≤ n.maxCache := by
    unfold read at hn
    obtain ⟨r, h1, hn⟩ := Res.bind_eq.mp hn
    obtain ⟨r2, h2, hn⟩ := Res.bind_eq.mp hn
    obtain ⟨c, h3, hn⟩ := Res.bind_eq.mp hn
    rw [← Res.pure_inj hn]
    refine ⟨rfl, rfl, ?_⟩
    by_cases hlt : (initParameters A o').maxCache < c.maxOrder
    · simp only [if_pos hlt]; omega
    · simp only [if_neg hlt]; omega
  have hmax : 2 ≤ n.maxCache := by
    have h1 := hinv.wf.ord_lt hinv.wf.start_lt
    have hc' : n.core = m.core := hc
    rw [hinv.wf.ord_start, ← hc'] at h1
    have := hempty.2.2
    omega
  have := hinv.uncached hmax
  have e : n = { m.uncached n.maxCache with counter := n.counter } := by
    have h1 := sig_alpha hs; have h2 := sig_beta hs; have h3 := sig_static hs; have h4 := sig_symbols hs
    simp only [Model.sig] at h1 h2 h3 h4 hc
    cases n
    simp only [Model.uncached] at *
    simp only [Model.mk.injEq]
    refine ⟨hc, h1, h2, h3, h4, trivial, trivial, ?_, hempty.1⟩
    rw [hempty.2.1, hc]
  rw [e]
  obtain ⟨a1, a2, a3, a4, a5⟩ := this
  refine ⟨a1, a2, a3, ⟨⟨a4.len, a4.entry, a4.idx, a4.size, a4.max⟩, ?_, ?_, ?_⟩, a5⟩
  · intro e he; cases he
  · intro e he; cases he
  · intro e he; cases he

/-- **C24** The size of the cache cannot be observed: a model read with another cache size allows the same
calls and gives the same answers for ever. -/
theorem C24_size_unobservable {o o' : Options A.D} (h : o' = { o with maxCache := o'.maxCache })
    (L : CountLaws A Ok (initParameters A o).beta) {src : Source A.C} {vocab : Option (Option (List (List Str)))}
    {m n m' : Model A} (hi : Initial A Ok o m) (hm : read A o src vocab = pure m) (hn : read A o' src vocab = pure n)
    {encode : Int → Str} {tr : List (Op × Answer A)} (hr : Run encode m tr m') : ∃ n', Run encode n tr n' := by
  obtain ⟨ord, V, u, h1, h2⟩ := hi.inv_size h L hm hn
  obtain ⟨n', h3, _⟩ := run_sig hr h1 h2 (read_sig h hm hn)
  exact ⟨n', h3⟩

/-- **C24** After any history every call is answered as if nothing were cached: as by the same model with
an empty cache of any size from two up. -/
theorem C24_answers_fresh {o : Options A.D} (L : CountLaws A Ok (initParameters A o).beta) {m0 m m1 : Model A}
    (hi : Initial A Ok o m0) {encode : Int → Str} {tr : List (Op × Answer A)} (hr : Run encode m0 tr m) {op : Op}
    (hv : op.Valid m) {a : Answer A} (hs : step encode op m = .ok (a, m1)) {size : Int} (hsize : 2 ≤ size) :
    ∃ n1, step encode op (m.uncached size) = .ok (a, n1) := by
  obtain ⟨ord0, V, u, h0⟩ := hi.inv L
  obtain ⟨ord, h, hinv, _⟩ := run_inv hr h0
  obtain ⟨n', hn, _⟩ := run_sig (.cons hv hs .nil) hinv (hinv.uncached hsize) rfl
  cases hn with
  | cons _ hn _ => exact ⟨_, hn⟩

/-! ## C25: the cache -/

/-- **C25** After any history the cache has at most its maximum of entries, which is the configured one
if that is above the order of the model; no two entries are for one state. -/
theorem C25_cache_bounded {o : Options A.D} (L : CountLaws A Ok (initParameters A o).beta) {m0 m : Model A}
    (hi : Initial A Ok o m0) {encode : Int → Str} {tr : List (Op × Answer A)} (hr : Run encode m0 tr m) :
    (m.cache.length : Int) ≤ m.maxCache ∧ m.maxCache = m0.maxCache ∧
      (m.core.maxOrder < o.maxCache → m.maxCache = o.maxCache) ∧ (m.cache.map Entry.state).Nodup := by
  obtain ⟨ord0, V, u, h0⟩ := hi.inv L
  obtain ⟨ord, h, hinv, hp, hobs, _⟩ := run_inv hr h0
  refine ⟨hinv.cache.size, hp.maxCache, ?_, ?_⟩
  · intro hlt
    rw [hp.maxCache]
    rw [hobs.maxOrder] at hlt
    have key : ∀ (src : Source A.C) vocab, read A o src vocab = pure m0 → m0.maxCache = o.maxCache := by
      intro src vocab hread
      unfold read at hread
      obtain ⟨r, _, hread⟩ := Res.bind_eq.mp hread
      obtain ⟨r2, _, hread⟩ := Res.bind_eq.mp hread
      obtain ⟨c, h3, hread⟩ := Res.bind_eq.mp hread
      have hread := Res.pure_inj hread
      have hge : (initParameters A o).maxOrder ≤ c.maxOrder := by
        unfold calculateStateOrders at h3
        by_cases hst : r2.1.start ≥ r2.1.states.length
        · simp only [if_pos hst] at h3; cases h3
        · simp only [if_neg hst] at h3
          obtain ⟨u', _, h3⟩ := Res.bind_eq.mp h3
          by_cases hu : u' < 0
          · simp only [if_pos hu] at h3; cases h3
          · simp only [if_neg hu] at h3
            obtain ⟨q, _, h3⟩ := Res.bind_eq.mp h3
            rw [← Res.pure_inj h3]
            by_cases hq : q.2 ≥ (initParameters A o).maxOrder
            · simp only [if_pos hq]; omega
            · simp only [if_neg hq]; omega
      rw [← hread] at hlt ⊢
      simp only at hlt ⊢
      have : (initParameters A o).maxCache = o.maxCache := by
        have : (initParameters A o).maxCache =
          if o.maxCache > (initParameters A o).maxOrder then o.maxCache else 2000 := rfl
        rw [this, if_pos (by omega)]
      rw [this, if_neg (by omega)]
    cases hi with
    | vocabulary _ h2 => exact key _ _ h2
    | automaton _ _ _ _ h5 => exact key _ _ h5
  · rw [List.nodup_iff_pairwise_ne, List.pairwise_iff_getElem]
    intro i j hi' hj hij heq
    rw [List.length_map] at hj
    have heq : (m.cache.map Entry.state)[i]? = (m.cache.map Entry.state)[j]? := by
      rw [List.getElem?_eq_getElem hi', List.getElem?_eq_getElem (by rw [List.length_map]; exact hj), heq]
    obtain ⟨ei, hei⟩ := exists_getElem?_of_lt (l := m.cache) (i := i) (by omega)
    obtain ⟨ej, hej⟩ := exists_getElem?_of_lt (l := m.cache) (i := j) hj
    rw [List.getElem?_map, List.getElem?_map, hei, hej] at heq
    simp only [Option.map_some, Option.some.injEq] at heq
    obtain ⟨s, hs1, hs2⟩ := hinv.cache.entry i ei hei
    obtain ⟨t, ht1, ht2⟩ := hinv.cache.entry j ej hej
    have : s = t := by rw [hs1, ht1] at heq; omega
    subst this
    rw [hs2] at ht2
    injection ht2 with ht2
    omega

/-- **C25** After any history looking up the cache entry of an existing state succeeds and gives the entry
of that state, with its scores; none of its consistency checks fails. -/
theorem C25_lookup_succeeds {o : Options A.D} (L : CountLaws A Ok (initParameters A o).beta) {m0 m : Model A}
    (hi : Initial A Ok o m0) {encode : Int → Str} {tr : List (Op × Answer A)} (hr : Run encode m0 tr m) {s : Nat}
    (hs : s < m.core.fst.states.length) :
    ∃ e m', ensureCacheAtState (s : Int) m = .ok (some e, m') ∧ m'.core = m.core ∧
      e.state = (s : Int) ∧ e ∈ m'.cache ∧ e.data.origin.length = e.data.dest.length ∧ e.data.dest.length = e.data.costs.length ∧ e.data.costs ≠ [] := by
  obtain ⟨ord0, V, u, h0⟩ := hi.inv L
  obtain ⟨ord, h, hinv, _⟩ := run_inv hr h0
  obtain ⟨d, hd, hsz⟩ := hinv.wf.ideal hinv.laws m.alpha s hs
  obtain ⟨e, m', h1, h3, _, h2, h4, h5⟩ := ensure_ok hinv.laws hinv.wf hinv.cache hs (fun x hx => hx.elim)
  refine ⟨e, m', h1, h3.core, h4, h5, ?_⟩
  rw [h2.unique hd, hsz.1, hsz.2.1, hsz.2.2]
  refine ⟨rfl, rfl, ?_⟩
  intro hnil
  have := hsz.2.2; rw [hnil] at this; simp at this

/-! ## C26: calls succeed and keep the model well-formed -/

/-- **C26** After any history every call on an existing state completes: nothing is read out of bounds and
no chain of backoffs is endless. -/
theorem C26_no_fault {o : Options A.D} (L : CountLaws A Ok (initParameters A o).beta) {m0 m : Model A}
    (hi : Initial A Ok o m0) {encode : Int → Str} {tr : List (Op × Answer A)} (hr : Run encode m0 tr m) {op : Op}
    (hv : op.Valid m) : ∃ a m', step encode op m = .ok (a, m') := by
  obtain ⟨ord0, V, u, h0⟩ := hi.inv L
  obtain ⟨ord, h, hinv, _⟩ := run_inv hr h0
  obtain ⟨a, m', _, _, h1, _⟩ := step_inv hinv encode hv
  exact ⟨a, m', h1⟩

/-- What users rely on about the contexts of a model: every arc and backoff leads to a state of the
model, the start state is one, and every state is a context shorter than `maxOrder`. -/
structure Contexts {C : Type} (f : Fst C) (maxOrder : Int) : Prop where
  start : f.start < f.states.length
  arcs : ∀ st ∈ f.states, ∀ a ∈ st.arcs, a.next < f.states.length
  short : ∀ s, s < f.states.length → ∃ k : Nat, Length f s k ∧ (k : Int) < maxOrder

theorem WF.contexts {f : Fst A.C} {ord : Nat → Nat} {mo : Int} {V u : Nat} (wf : WF A Ok f ord mo V u) :
    Contexts f mo := by
  refine ⟨wf.start_lt, ?_, fun s hs => ⟨ord s, wf.length s hs, wf.ord_lt hs⟩⟩
  intro st hst a ha
  obtain ⟨s, hs⟩ := List.getElem?_of_mem hst
  have ok := wf.states s st hs
  by_cases hl : a.label = 0
  · by_cases hu : s = u
    · exact absurd hl ((ok.unigram hu).2.2.1 a ha)
    · obtain ⟨_, w, b, rest, h1, h2, _⟩ := ok.node hu
      have hnd := ok.nodup
      rw [h1] at ha hnd
      rcases List.mem_cons.mp ha with rfl | ha
      · exact h2
      · simp only [List.map_cons, List.nodup_cons, List.mem_map] at hnd
        exact absurd ⟨a, ha, hl⟩ hnd.1
  · exact (ok.arcs a ha hl).2.1

/-- **C26** After any history `UpdateLMCounts` on an existing state, with any symbols and count, returns
true; it only adds states, leaves the backoffs of the others alone, and every context stays below the
maximum order. -/
theorem C26_update_succeeds {o : Options A.D} (L : CountLaws A Ok (initParameters A o).beta) {m0 m : Model A}
    (hi : Initial A Ok o m0) {encode : Int → Str} {tr : List (Op × Answer A)} (hr : Run encode m0 tr m) {s : Nat}
    (hs : s < m.core.fst.states.length) (syms : List Int) (n : Int) :
    ∃ m', updateLMCounts encode s syms n m = .ok (true, m') ∧
      m.core.fst.states.length ≤ m'.core.fst.states.length ∧
      (∀ x, x < m.core.fst.states.length → backoff m'.core.fst x = backoff m.core.fst x) ∧
      m'.core.fst.start = m.core.fst.start ∧ m'.core.maxOrder = m0.core.maxOrder ∧
      Contexts m'.core.fst m'.core.maxOrder := by
  obtain ⟨ord0, V, u, h0⟩ := hi.inv L
  obtain ⟨ord, h, hinv, hp, hobs0, _⟩ := run_inv hr h0
  obtain ⟨c', ord', l, hobs, _, heff⟩ := updateLMCounts_effect (g := m.sig) hinv.laws hinv.wf hinv.orders hinv.labels
    encode hs syms n
  obtain ⟨m', e1, e2, e3, e4⟩ := heff m rfl hinv.cache
  subst e3
  refine ⟨m', e1, hobs.len, fun x hx => (hobs.sameBackoff x hx).1, hobs.start, ?_, (hobs.wf hinv.wf).contexts⟩
  rw [hobs.maxOrder]; exact hobs0.maxOrder

/-! ## C27: update exclusion -/

/-- `k` more observations of a count. -/
def bumps (A : Arith) : Nat → Option A.C → Option A.C
  | 0, w => w
  | k + 1, w => bumps A k (some (bump A w))

/-- repeated observations at a state where the symbol was observed -/
theorem Observes.repeated {V u : Nat} {s : Nat} {y : Int} : ∀ (k : Nat) {c c' : Core A.C} {ord ord' : Nat → Nat},
    Observes A Ok V u c ord (List.replicate k (s, y)) c' ord' → s < c.fst.states.length →
    (count A c.fst s y).isSome = true →
    c.fst.states.length ≤ c'.fst.states.length ∧
    (∀ (x : Nat) (z : Int), x < c.fst.states.length → count A c'.fst x z =
      if z = y ∧ x = s then bumps A k (count A c.fst x z) else count A c.fst x z) ∧
    (∀ (x : Nat) (z : Int), c.fst.states.length ≤ x → count A c'.fst x z = none) := by
  intro k
  induction k with
  | zero =>
    intro c c' ord ord' h hs _
    cases h
    refine ⟨Nat.le_refl _, ?_, ?_⟩
    · intro x z _
      by_cases hh : z = y ∧ x = s
      · rw [if_pos hh]; rfl
      · rw [if_neg hh]
    · intro x z hx
      unfold count
      rw [List.getElem?_eq_none hx]; rfl
  | succ k ih =>
    intro c c' ord ord' h hs hc
    cases h with
    | cons a1 a2 a3 hobs hrest =>
      obtain ⟨w, hw⟩ := Option.isSome_iff_exists.mp hc
      have hlen := hobs.len
      obtain ⟨i1, i2, i3⟩ := ih hrest (by omega) (by rw [hobs.count_self s .here]; rfl)
      refine ⟨by omega, ?_, ?_⟩
      · intro x z hx
        rw [i2 x z (by omega)]
        by_cases hh : z = y ∧ x = s
        · rw [if_pos hh, if_pos hh]
          obtain ⟨rfl, rfl⟩ := hh
          rw [hobs.count_self x .here]; rfl
        · rw [if_neg hh, if_neg hh]
          by_cases hz : z = y
          · subst hz
            have hxs : x ≠ s := fun e => hh ⟨rfl, e⟩
            unfold count
            rw [hobs.outside x hx (fun he => hxs ((excluded_iff_some hw).mp he))]
          · exact hobs.count_other x z hx hz
      · intro x z hx
        by_cases hx2 : x < ‹Core A.C›.fst.states.length
        · have hne : ¬ (z = y ∧ x = s) := by rintro ⟨_, rfl⟩; omega
          rw [i2 x z hx2, if_neg hne]
          exact (hobs.fresh x hx hx2).1 z
        · exact i3 x z (by omega)

/-- **C27** Update exclusion. After any history, let `y` be the label of a symbol (0: end of string) the
model knows. One `UpdateLMCounts(s, {sym}, n)` with `n > 0` adds one to the count of `y` at each context
from `s` down to the longest one where it had been observed, itself included (`n` instead of one at `s`),
counts of zero becoming counts of one; it changes no other count, and contexts it creates have no counts. -/
theorem C27_update_exclusion {o : Options A.D} (L : CountLaws A Ok (initParameters A o).beta) {m0 m m' : Model A}
    (hi : Initial A Ok o m0) {encode : Int → Str} {tr : List (Op × Answer A)} (hr : Run encode m0 tr m)
    (hdyn : m.static = false) {s : Nat} (hs : s < m.core.fst.states.length) {sym : Int} {n : Int} (hn : 0 < n)
    {y : Int} (hy : y = if sym > 0 then m.symbols.findLabel (encode sym) else sym) (hy0 : 0 ≤ y)
    {b : Bool} (hup : updateLMCounts encode s [sym] n m = .ok (b, m')) :
    b = true ∧
    (∀ (x : Nat) (z : Int), x < m.core.fst.states.length → z ≠ y → count A m'.core.fst x z = count A m.core.fst x z) ∧
    (∀ x : Nat, x < m.core.fst.states.length → ¬ Excluded A m.core.fst y s x →
      count A m'.core.fst x y = count A m.core.fst x y) ∧
    (∀ x : Nat, Excluded A m.core.fst y s x → x ≠ s →
      count A m'.core.fst x y = some (bump A (count A m.core.fst x y))) ∧
    count A m'.core.fst s y = bumps A n.toNat (count A m.core.fst s y) ∧
    (∀ (x : Nat) (z : Int), m.core.fst.states.length ≤ x → count A m'.core.fst x z = none) := by
  obtain ⟨ord0, V, u, h0⟩ := hi.inv L
  obtain ⟨ord, h, hinv, _⟩ := run_inv hr h0
  obtain ⟨t, c', ord', hobs, ht, _, hact⟩ := updateSymbol_action (g := m.sig) hinv.laws hinv.wf (hinv.orders hdyn)
    hinv.labels encode hn sym hs
  have hidx : symIndex encode m.sig.symbols sym = y := hy.symm
  rw [hidx, if_neg (by omega)] at hobs
  -- the whole call
  obtain ⟨m1, e1, e2, e3, e4⟩ := hact m rfl hinv.cache
  have hfull : updateLMCounts encode s [sym] n m = .ok (true, m1) := by
    unfold updateLMCounts
    rw [hdyn, if_neg (by simp; omega)]
    refine orElse_some (a := ()) (f := fun _ => true) ?_
    show (updateSymbol encode n (s : Int) sym >>= fun t => updateSymbols encode n t []) m = _
    rw [PM.bind_some e1]; rfl
  rw [hfull] at hup
  injection hup with hup
  injection hup with hb hm
  subst hb; subst hm; subst e3
  refine ⟨rfl, ?_⟩
  obtain ⟨k, hk⟩ : ∃ k, n.toNat = k + 1 := ⟨n.toNat - 1, by omega⟩
  rw [hk] at hobs ⊢
  rw [List.replicate_succ] at hobs
  generalize m1.core = c2 at hobs ⊢
  cases hobs with
  | cons a1 a2 a3 hone hrest =>
    have hlen := hone.len
    simp only [Model.sig] at hlen hone
    obtain ⟨i1, i2, i3⟩ := hrest.repeated k (by omega) (by rw [hone.count_self s .here]; rfl)
    have hexlt : ∀ x, Excluded A m.core.fst y s x → x < m.core.fst.states.length := by
      intro x hx
      rcases hx.isBelow with rfl | hx
      · exact hs
      · exact (hx.ord_lt hinv.wf).2
    refine ⟨?_, ?_, ?_, ?_, ?_⟩
    · intro x z hx hz
      rw [i2 x z (by omega), if_neg (fun hh => hz hh.1)]
      exact hone.count_other x z hx hz
    · intro x hx hne
      have hxs : x ≠ s := fun e => hne (by rw [e]; exact .here)
      rw [i2 x y (by omega), if_neg (fun hh => hxs hh.2)]
      unfold count
      rw [hone.outside x hx hne]
    · intro x hx hxs
      rw [i2 x y (by have := hexlt x hx; omega), if_neg (fun hh => hxs hh.2)]
      exact hone.count_self x hx
    · rw [i2 s y (by omega), if_pos ⟨rfl, rfl⟩, hone.count_self s .here]; rfl
    · intro x z hx
      by_cases hx2 : x < ‹Core A.C›.fst.states.length
      · have hne : ¬ (z = y ∧ x = s) := by rintro ⟨_, rfl⟩; omega
        rw [i2 x z hx2, if_neg hne]
        exact (hone.fresh x hx hx2).1 z
      · exact i3 x z (by omega)

/-- **C27** A symbol the model does not know changes no count. -/
theorem C27_unknown_ignored {o : Options A.D} (L : CountLaws A Ok (initParameters A o).beta) {m0 m m' : Model A}
    (hi : Initial A Ok o m0) {encode : Int → Str} {tr : List (Op × Answer A)} (hr : Run encode m0 tr m)
    {s : Nat} (hs : s < m.core.fst.states.length) {sym : Int} {n : Int}
    (hy : (if sym > 0 then m.symbols.findLabel (encode sym) else sym) < 0)
    {b : Bool} (hup : updateLMCounts encode s [sym] n m = .ok (b, m')) : b = true ∧ m'.core = m.core := by
  by_cases hno : (m.static || decide (n ≤ 0)) = true
  · unfold updateLMCounts at hup
    rw [if_pos hno] at hup
    injection hup with hup
    injection hup with h1 h2
    exact ⟨h1.symm, by rw [h2]⟩
  · have hd : m.static = false := by
      cases h : m.static with
      | false => rfl
      | true => rw [h] at hno; simp at hno
    have hn : 0 < n := by rw [hd] at hno; simp at hno; exact hno
    obtain ⟨ord0, V, u, h0⟩ := hi.inv L
    obtain ⟨ord, h, hinv, _⟩ := run_inv hr h0
    obtain ⟨t, c', ord', hobs, ht, _, hact⟩ := updateSymbol_action (g := m.sig) hinv.laws hinv.wf (hinv.orders hd)
      hinv.labels encode hn sym hs
    have hidx : symIndex encode m.sig.symbols sym = if sym > 0 then m.symbols.findLabel (encode sym) else sym := rfl
    rw [hidx, if_pos hy] at hobs
    cases hobs
    obtain ⟨m1, e1, e2, e3, e4⟩ := hact m rfl hinv.cache
    have hfull : updateLMCounts encode s [sym] n m = .ok (true, m1) := by
      unfold updateLMCounts
      rw [if_neg hno]
      refine orElse_some (a := ()) (f := fun _ => true) ?_
      show (updateSymbol encode n (s : Int) sym >>= fun t => updateSymbols encode n t []) m = _
      rw [PM.bind_some e1]; rfl
    rw [hfull] at hup
    injection hup with hup
    injection hup with hb hm
    subst hb; subst hm
    exact ⟨rfl, e3⟩

/-! ## C14, C28 -/

/-- **C14** (PPM) `UpdateLMCounts` with a count that is not positive returns true and changes nothing. -/
theorem C14_ppm_nonpositive_noop (encode : Int → Str) (m : Model A) (s : Int) (syms : List Int) {n : Int}
    (hn : n ≤ 0) : updateLMCounts encode s syms n m = .ok (true, m) := by
  unfold updateLMCounts
  rw [if_pos (by simp [hn])]

/-- **C28** (PPM) A model configured static never changes its counts, and after any history it answers
every call as right after `Read`; in particular updates return true. -/
theorem C28_ppm_static {o : Options A.D} (L : CountLaws A Ok (initParameters A o).beta) {m0 m : Model A}
    (hi : Initial A Ok o m0) (hst : o.static = true) {encode : Int → Str} {tr : List (Op × Answer A)}
    (hr : Run encode m0 tr m) : m.core = m0.core ∧
      (∀ s syms n, updateLMCounts encode s syms n m = .ok (true, m)) ∧
      ∀ op : Op, op.Valid m0 → ∃ a m1 m2, step encode op m0 = .ok (a, m1) ∧ step encode op m = .ok (a, m2) := by
  have hst0 : m0.static = true := by rw [hi.static_eq]; exact hst
  obtain ⟨ord0, V, u, h0⟩ := hi.inv L
  obtain ⟨ord, h, hinv, hp, _, hsame⟩ := run_inv hr h0
  obtain ⟨hcore, hord⟩ := hsame hst0
  refine ⟨hcore, ?_, ?_⟩
  · intro s syms n
    unfold updateLMCounts
    rw [if_pos (by rw [hp.static, hst0]; rfl)]
  · intro op hv
    obtain ⟨a, m1, _, _, h1, _⟩ := step_inv h0 encode hv
    subst hord
    obtain ⟨n', hn, _⟩ := run_sig (.cons hv h1 .nil) h0 hinv (by rw [hp.sig, hcore]; rfl)
    cases hn with
    | cons _ hn _ => exact ⟨a, m1, _, h1, hn⟩

end Mozolm.Ppm
