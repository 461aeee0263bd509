import Verif.Ppm.Memory
import Verif.Ppm.Context
import Verif.Props.PpmTrain

/-! # Calls on the automaton as calls on the memory it holds -/

namespace Mozolm.Ppm
open XR Classical
variable {K V u : Nat} {M : Memory} {ctxs : List (List Int)} {ord : Nat → Nat}

/-! ## The longest known context -/

theorem Memory.longestUpTo_spec (hnil : M.known []) (past : List Int) (k : Nat) :
    M.known (M.longestUpTo past k) ∧ M.longestUpTo past k <+: past ∧
      ∀ e, M.known e → e <+: past → e.length ≤ k → e.length ≤ (M.longestUpTo past k).length := by
  induction k with
  | zero => exact ⟨hnil, List.nil_prefix, fun e _ _ h => by omega⟩
  | succ k ih =>
    unfold Memory.longestUpTo
    by_cases h : M.known (past.take (k + 1))
    · rw [if_pos h]
      refine ⟨h, List.take_prefix _ _, fun e _ he hl => ?_⟩
      rw [List.length_take]
      have := he.length_le
      omega
    · rw [if_neg h]
      refine ⟨ih.1, ih.2.1, fun e hk he hl => ih.2.2 e hk he ?_⟩
      rcases Nat.lt_or_ge e.length (k + 1) with hlt | hge
      · omega
      · exfalso
        have : e.length = k + 1 := by omega
        rw [List.prefix_iff_eq_take.mp he, this] at hk
        exact h hk

theorem Memory.longest_spec (hnil : M.known []) (past : List Int) :
    M.known (M.longest past) ∧ M.longest past <+: past ∧ ∀ e, M.known e → e <+: past → e.length ≤ (M.longest past).length := by
  have h := M.longestUpTo_spec hnil past past.length
  exact ⟨h.1, h.2.1, fun e h1 h2 => h.2.2 e h1 h2 h2.length_le⟩

theorem Memory.longest_eq (hnil : M.known []) {past d : List Int} (h1 : M.known d) (h2 : d <+: past)
    (h3 : ∀ e, M.known e → e <+: past → e.length ≤ d.length) : d = M.longest past := by
  obtain ⟨k1, k2, k3⟩ := M.longest_spec hnil past
  have h : d.length = (M.longest past).length := le_antisymm (k3 d h1 h2) (h3 _ k1 k2)
  rw [List.prefix_iff_eq_take.mp h2, List.prefix_iff_eq_take.mp k2, ← h]

theorem Memory.longest_self (hnil : M.known []) {c : List Int} (h : M.known c) : M.longest c = c :=
  (M.longest_eq hnil h List.prefix_rfl fun _ _ he => he.length_le).symm

/-- what came before the longest context does not matter -/
theorem Memory.Grounded.longest_cons (hg : M.Grounded K V) {x : Int} (hx : x ≠ 0) (past : List Int) :
    M.longest (x :: M.longest past) = M.longest (x :: past) := by
  obtain ⟨k1, k2, k3⟩ := M.longest_spec hg.nil past
  obtain ⟨l1, l2, l3⟩ := M.longest_spec hg.nil (x :: M.longest past)
  refine M.longest_eq hg.nil l1 (l2.trans ((List.prefix_cons_inj x).mpr k2)) fun e he hpre => ?_
  refine l3 e he ?_
  cases e with
  | nil => exact List.nil_prefix
  | cons z e =>
    obtain ⟨rfl, hpre'⟩ := List.cons_prefix_cons.mp hpre
    rw [List.prefix_cons_inj]
    have hlt : e.length < K := by have := hg.short _ he; simp only [List.length_cons] at this; omega
    have hk : M.known e := hg.counted e z (hg.seen z e he hx) hlt
    exact List.prefix_of_prefix_length_le hpre' k2 (k3 e hk hpre')

/-- a symbol that no context begins with -/
theorem Memory.Grounded.longest_unknown (hg : M.Grounded K V) {x : Int} (hx : x < 0) (past : List Int) :
    M.longest (x :: past) = [] := by
  refine (M.longest_eq hg.nil hg.nil List.nil_prefix fun e he hpre => ?_).symm
  cases e with
  | nil => simp
  | cons z e =>
    obtain ⟨rfl, _⟩ := List.cons_prefix_cons.mp hpre
    have := (hg.labels z e he).1
    omega

/-! ## Where a symbol leads -/

theorem Holds.follows {f : Fst XR} (h : Holds K V M ctxs f) (hg : M.Grounded K V) (h2 : 2 ≤ K) {y : Int} (hy : 0 < y) (hyV : y ≤ V)
    {s og : Nat} (ho : Origin Arith.xr f y s og) :
    ∀ {c : List Int} {t : Nat}, ctxs[s]? = some c → Ppm.target f og y = some t → ctxs[t]? = some (M.longest (y :: c)) := by
  induction ho with
  | @here s hc =>
    intro c t hs ht
    have hpos : 0 < M.count c y := by
      apply Nat.pos_of_ne_zero
      intro h0
      rw [(h.count_none hs (by omega) hyV).mpr h0] at hc; cases hc
    obtain ⟨t', h3, h4⟩ := h.target s c hs y hy hyV hpos
    rw [ht] at h3
    injection h3 with h3
    subst h3
    rcases h4 with h4 | ⟨rfl, rfl, hunk⟩
    · rw [h4]
      congr 1
      refine M.longest_eq hg.nil (h.known h4) (List.take_prefix _ _) fun e he hpre => ?_
      rw [List.length_take]
      have := hg.short e he
      have := hpre.length_le
      omega
    · rw [hs]
      congr 1
      refine M.longest_eq hg.nil hg.nil List.nil_prefix fun e he hpre => ?_
      cases e with
      | nil => simp
      | cons z e =>
        exfalso
        obtain ⟨rfl, hpre'⟩ := List.cons_prefix_cons.mp hpre
        rw [List.prefix_nil.mp hpre'] at he
        exact hunk he
  | @lower s b og hc hb _ ih =>
    intro c t hs ht
    obtain ⟨hne, hbc⟩ := (h.backoff s c hs b).mp hb
    rw [ih hbc ht]
    congr 1
    obtain ⟨l1, l2, l3⟩ := M.longest_spec hg.nil (y :: c.dropLast)
    refine M.longest_eq hg.nil l1 (l2.trans ((List.prefix_cons_inj y).mpr (List.dropLast_prefix c))) fun e he hpre => ?_
    refine l3 e he ?_
    cases e with
    | nil => exact List.nil_prefix
    | cons z e =>
      obtain ⟨rfl, hpre'⟩ := List.cons_prefix_cons.mp hpre
      rw [List.prefix_cons_inj]
      refine prefix_dropLast hpre' ?_
      rintro rfl
      have := hg.seen z e he (by omega)
      have h0 := (h.count_none hs (by omega) hyV).mp hc
      omega

/-- the state of the empty context -/
theorem Holds.unigram {f : Fst XR} {mo : Int} (h : Holds K V M ctxs f) (wf : WF Arith.xr OkR f ord mo V u) : ctxs[u]? = some [] := by
  have := ((h.backoff _ _ h.start u).mp wf.start).2
  simpa using this

/-- The alphabet of a model: `typed` and `taught` symbols of code points. -/
def alphabet (t : SymbolTable) (encode : Int → Str) : Alphabet where
  taught sym := if sym = 0 then some 0 else
    if 0 < sym ∧ 0 ≤ t.findLabel (encode sym) then some (t.findLabel (encode sym)) else none
  typed := typedLabel t encode

theorem taught_none {t : SymbolTable} {encode : Int → Str} {sym : Int} :
    (alphabet t encode).taught sym = none ↔ symIndex encode t sym < 0 := by
  unfold alphabet symIndex
  simp only
  by_cases h0 : sym = 0
  · subst h0; simp
  · rw [if_neg h0]
    by_cases hp : 0 < sym
    · rw [if_pos hp]
      by_cases hl : 0 ≤ t.findLabel (encode sym)
      · rw [if_pos ⟨hp, hl⟩]
        constructor
        · intro h; cases h
        · intro h; omega
      · rw [if_neg (fun h => hl h.2)]
        constructor
        · intro _; omega
        · intro _; rfl
    · rw [if_neg (fun h => hp h.1), if_neg hp]
      constructor
      · intro _; omega
      · intro _; rfl

theorem taught_some {t : SymbolTable} {encode : Int → Str} {sym : Int} (h : ¬ symIndex encode t sym < 0) :
    (alphabet t encode).taught sym = some (symIndex encode t sym) := by
  unfold alphabet
  unfold symIndex at h ⊢
  simp only
  by_cases h0 : sym = 0
  · subst h0; simp
  · rw [if_neg h0]
    by_cases hp : 0 < sym
    · rw [if_pos hp] at h ⊢
      rw [if_pos ⟨hp, by omega⟩]
    · rw [if_neg hp] at h
      omega

theorem typedLabel_ne (t : SymbolTable) (encode : Int → Str) (sym : Int) : typedLabel t encode sym ≠ 0 := by
  unfold typedLabel
  split <;> omega

/-- `NextState` in the memory -/
theorem Holds.next {g : Sig Arith.xr} (h : Holds K V M ctxs g.core.fst) (hg : M.Grounded K V) (h2 : 2 ≤ K)
    (wf : WF Arith.xr OkR g.core.fst ord g.core.maxOrder V u) (hl : ∀ str, g.symbols.findLabel str ≤ V)
    {encode : Int → Str} {sym : Int} {s t : Nat} (hf : Follows Arith.xr g u s encode sym t) {c : List Int}
    (hs : ctxs[s]? = some c) : ctxs[t]? = some (M.longest (typedLabel g.symbols encode sym :: c)) := by
  unfold typedLabel
  rcases hf with ⟨hpos, og, ho, ht⟩ | ⟨hneg, rfl⟩
  · rw [if_pos hpos]
    exact h.follows hg h2 hpos (hl _) ho hs ht
  · rw [if_neg (by omega), hg.longest_unknown (by omega)]
    exact h.unigram wf

/-! ## Learning -/

/-- repeated observations -/
theorem Observes.holds {s : Nat} {y : Int} {cs : List Int} (h2 : 2 ≤ K) (hy0 : 0 ≤ y) (hyV : y ≤ V) :
    ∀ (n : Nat) {M : Memory} {ctxs : List (List Int)} {c c' : Core Arith.xr.C} {ord ord' : Nat → Nat},
      Observes Arith.xr OkR V u c ord (List.replicate n (s, y)) c' ord' → Holds K V M ctxs c.fst → M.Grounded K V →
      c.maxOrder = K → WF Arith.xr OkR c.fst ord c.maxOrder V u → ctxs[s]? = some cs →
      ∃ new, Holds K V (M.observeN K cs y n) (ctxs ++ new) c'.fst ∧ (M.observeN K cs y n).Grounded K V := by
  intro n
  induction n with
  | zero =>
    intro M ctxs c c' ord ord' ho h hg _ _ _
    cases ho
    exact ⟨[], by rw [List.append_nil]; exact h, hg⟩
  | succ n ih =>
    intro M ctxs c c' ord ord' ho h hg hK wf hs
    rw [List.replicate_succ] at ho
    cases ho with
    | cons _ _ _ h1 h3 =>
      obtain ⟨new, k1, k2⟩ := h.observe hg hK h2 wf h1 hs hy0 hyV
      obtain ⟨new', l1, l2⟩ := ih h3 k1 k2 (h1.maxOrder.trans hK) h1.wf (by
        rw [List.getElem?_append_left (lt_of_getElem?_eq_some hs)]; exact hs)
      exact ⟨new ++ new', by rw [← List.append_assoc]; exact l1, l2⟩

/-- The loop of `UpdateLMCounts` in the memory. -/
theorem updateSymbols_holds (h2 : 2 ≤ K) (encode : Int → Str) {count : Int} (hcount : 0 < count) (syms : List Int) :
    ∀ {g : Sig Arith.xr} {ord : Nat → Nat} {M : Memory} {ctxs : List (List Int)}, CountLaws Arith.xr OkR g.beta →
    WF Arith.xr OkR g.core.fst ord g.core.maxOrder V u → OrdersOk g.core ord →
    (∀ str, g.symbols.findLabel str ≤ V) → g.core.maxOrder = K →
    Holds K V M ctxs g.core.fst → M.Grounded K V → ∀ {s : Nat} {cs : List Int}, ctxs[s]? = some cs →
    ∃ (c' : Core XR) (new : List (List Int)), Action (updateSymbols encode count (s : Int) syms) g () c' ∧
      Holds K V (M.learn K (alphabet g.symbols encode) count.toNat cs syms) (ctxs ++ new) c'.fst ∧
      (M.learn K (alphabet g.symbols encode) count.toNat cs syms).Grounded K V := by
  induction syms with
  | nil =>
    intro g ord M ctxs _ _ _ _ _ h hg s cs _
    exact ⟨g.core, [], fun m hm hc => ⟨m, rfl, Params.refl m, sig_core hm, hc⟩, by simpa [Memory.learn] using h, hg⟩
  | cons sym syms ih =>
    intro g ord M ctxs L wf ho hl hK h hg s cs hs
    obtain ⟨t, c1, ord1, k1, k2, k3, k4⟩ := updateSymbol_action L wf ho hl encode hcount sym (h.lt hs)
    have hone : ∃ new, Holds K V (M.learnOne K (alphabet g.symbols encode) count.toNat cs sym).1 (ctxs ++ new) c1.fst ∧
        (M.learnOne K (alphabet g.symbols encode) count.toNat cs sym).1.Grounded K V ∧
        (ctxs ++ new)[t]? = some (M.learnOne K (alphabet g.symbols encode) count.toNat cs sym).2 := by
      by_cases hneg : symIndex encode g.symbols sym < 0
      · rw [if_pos hneg] at k1 k3
        cases k1
        subst k3
        unfold Memory.learnOne
        rw [taught_none.mpr hneg]
        exact ⟨[], by simpa using h, hg, by simpa using h.start⟩
      · rw [if_neg hneg] at k1 k3
        unfold Memory.learnOne
        rw [taught_some hneg]
        have hle := symIndex_le hl encode sym
        obtain ⟨new, l1, l2⟩ := Observes.holds h2 (by omega) hle _ k1 h hg hK wf hs
        refine ⟨new, l1, l2, ?_⟩
        have hs' : (ctxs ++ new)[s]? = some cs := by
          rw [List.getElem?_append_left (lt_of_getElem?_eq_some hs)]; exact hs
        exact Holds.next (g := { g with core := c1 }) l1 l2 h2 (k1.wf wf) hl k3 hs'
    obtain ⟨new, l1, l2, l3⟩ := hone
    obtain ⟨c2, new', n1, n2, n3⟩ := ih (g := { g with core := c1 }) L (k1.wf wf) (k1.orders ho) hl
      (k1.maxOrder.trans hK) l1 l2 l3
    exact ⟨c2, new ++ new', k4.bind n1, by rw [← List.append_assoc]; exact n2, n3⟩

/-- `GetNegLogProbs` in the memory. -/
theorem Scored.holds (h2 : 2 ≤ K) {alpha beta : Arith.xr.D} {s : Nat} {ys : List Int} {r : Option (List Arith.xr.C)} {c c' : Core Arith.xr.C}
    {ord ord' : Nat → Nat} (hsc : Scored Arith.xr OkR V u alpha beta c ord s ys r c' ord') :
    ∀ {M : Memory} {ctxs : List (List Int)} {cs : List Int}, Holds K V M ctxs c.fst → M.Grounded K V → c.maxOrder = K →
      WF Arith.xr OkR c.fst ord c.maxOrder V u → ctxs[s]? = some cs →
      ∃ new, Holds K V (M.learnLabels K V cs ys) (ctxs ++ new) c'.fst ∧ (M.learnLabels K V cs ys).Grounded K V := by
  induction hsc with
  | nil => intro M ctxs cs h hg _ _ _; exact ⟨[], by simpa [Memory.learnLabels] using h, hg⟩
  | stop hy =>
    intro M ctxs cs h hg _ _ _
    unfold Memory.learnLabels
    rw [if_neg hy]
    exact ⟨[], by simpa using h, hg⟩
  | @cons c ord s d w c1 ord1 t r c2 ord2 y ys hyV hs _ _ hobs ht _ ih =>
    intro M ctxs cs h hg hK wf hcs
    unfold Memory.learnLabels
    rw [if_pos ⟨by omega, by omega⟩]
    obtain ⟨new, k1, k2⟩ := h.observe hg hK h2 wf hobs hcs (by omega) (by omega)
    have hcs' : (ctxs ++ new)[s]? = some cs := by
      rw [List.getElem?_append_left (lt_of_getElem?_eq_some hcs)]; exact hcs
    have ht' : (ctxs ++ new)[t]? = some (if (y : Int) = 0 then [0] else (M.observe K cs y).longest ((y : Int) :: cs)) := by
      by_cases hy : (y : Int) = 0
      · rw [if_pos hy]
        simp only [Ppm.target, if_pos hy] at ht
        injection ht with ht
        rw [← ht]; exact k1.start
      · rw [if_neg hy]
        exact k1.follows k2 h2 (by omega) (by omega) (.here (by rw [hobs.count_self s .here]; rfl)) hcs' ht
    obtain ⟨new', l1, l2⟩ := ih k1 k2 (hobs.maxOrder.trans hK) hobs.wf ht'
    exact ⟨new ++ new', by rw [← List.append_assoc]; exact l1, l2⟩

end Mozolm.Ppm
