import Verif.Ppm.MemorySpec
import Verif.Ppm.Monotone
import Verif.Ppm.TrainText

/-! # An observation in the automaton is an observation in the memory it holds -/

namespace Mozolm.Ppm
open XR Classical
variable {K V u : Nat} {M : Memory} {ctxs : List (List Int)} {f : Fst XR} {ord : Nat → Nat} {mo : Int}

theorem Memory.Grounded.nil (hg : M.Grounded K V) : M.known [] := by
  have := hg.closed _ hg.start
  simpa using this

theorem Memory.Grounded.prefix (hg : M.Grounded K V) {c d : List Int} (hc : M.known c) (h : d <+: c) : M.known d := by
  obtain ⟨e, rfl⟩ := h
  induction e using List.reverseRecOn with
  | nil => simpa using hc
  | append_singleton e a ih =>
    refine ih ?_
    have := hg.closed _ hc
    rwa [← List.append_assoc, List.dropLast_concat] at this

theorem Memory.Counted.self {c : List Int} {y : Int} : M.Counted c y c :=
  ⟨List.prefix_rfl, fun _ h1 h2 h3 => absurd (List.IsPrefix.eq_of_length h1 (le_antisymm h1.length_le h2.length_le)).symm h3⟩

theorem Memory.observe_mono (K : Nat) (M : Memory) (cs : List Int) (y : Int) (d : List Int) (z : Int) :
    M.count d z ≤ (M.observe K cs y).count d z := by
  unfold Memory.observe
  simp only
  split <;> omega

theorem prefix_dropLast {c d : List Int} (h : d <+: c) (hne : d ≠ c) : d <+: c.dropLast := by
  refine List.prefix_of_prefix_length_le h (List.dropLast_prefix c) ?_
  rw [List.length_dropLast]
  have hle := h.length_le
  rcases Nat.lt_or_ge d.length c.length with hlt | hge
  · omega
  · exact absurd (h.eq_of_length (by omega)) hne

theorem Memory.Counted.lower {c d : List Int} {y : Int} (h0 : M.count c y = 0) (h : M.Counted c.dropLast y d) :
    M.Counted c y d := by
  refine ⟨h.1.trans (List.dropLast_prefix c), fun e h1 h2 h3 => ?_⟩
  by_cases he : e = c
  · rw [he]; exact h0
  · exact h.2 e h1 (prefix_dropLast h2 he) h3

/-- the next shorter context -/
theorem Memory.Counted.next {c d : List Int} {y : Int} (h : M.Counted c y d) (h0 : M.count d y = 0) :
    M.Counted c y d.dropLast := by
  refine ⟨(List.dropLast_prefix d).trans h.1, fun e h1 h2 h3 => ?_⟩
  by_cases hd : e = d
  · rw [hd]; exact h0
  · refine h.2 e ?_ h2 hd
    refine List.prefix_of_prefix_length_le h.1 h2 ?_
    have hl := h1.length_le
    rw [List.length_dropLast] at hl
    rcases Nat.lt_or_ge e.length d.length with hlt | hge
    · exact absurd (h1.eq_of_length (by rw [List.length_dropLast]; omega)).symm h3
    · exact hge

theorem Holds.index (h : Holds K V M ctxs f) {c : List Int} (hc : M.known c) : ∃ s : Nat, ctxs[s]? = some c :=
  List.getElem?_of_mem ((h.contexts c).mpr hc)

theorem Holds.known (h : Holds K V M ctxs f) {s : Nat} {c : List Int} (hc : ctxs[s]? = some c) : M.known c :=
  (h.contexts c).mp (List.mem_of_getElem? hc)

theorem Holds.lt (h : Holds K V M ctxs f) {s : Nat} {c : List Int} (hc : ctxs[s]? = some c) : s < f.states.length := by
  rw [h.len]; exact lt_of_getElem?_eq_some hc

theorem Holds.context (h : Holds K V M ctxs f) {s : Nat} (hs : s < f.states.length) : ∃ c : List Int, ctxs[s]? = some c :=
  exists_getElem?_of_lt (by rw [← h.len]; exact hs)

theorem Holds.inj (h : Holds K V M ctxs f) {s t : Nat} {c : List Int} (hs : ctxs[s]? = some c) (ht : ctxs[t]? = some c) : s = t :=
  (List.getElem?_inj (lt_of_getElem?_eq_some hs) h.nodup).mp (hs.trans ht.symm)

/-- the shorter context's state -/
theorem Holds.shorter (h : Holds K V M ctxs f) (hg : M.Grounded K V) {s : Nat} {c : List Int} (hs : ctxs[s]? = some c) (hne : c ≠ []) :
    ∃ b : Nat, Ppm.backoff f s = some b ∧ ctxs[b]? = some c.dropLast := by
  obtain ⟨b, hb⟩ := h.index (hg.closed c (h.known hs))
  exact ⟨b, (h.backoff s c hs b).mpr ⟨hne, hb⟩, hb⟩

/-- the order of a state is the length of its context -/
theorem Holds.lengthN (h : Holds K V M ctxs f) (hg : M.Grounded K V) (wf : WF Arith.xr OkR f ord mo V u) :
    ∀ (n : Nat) {s : Nat} {c : List Int}, c.length = n → ctxs[s]? = some c → ord s = n := by
  intro n
  induction n with
  | zero =>
    intro s c hn hs
    have hc : c = [] := List.length_eq_zero_iff.mp hn
    subst hc
    have : Ppm.backoff f s = none := by
      cases hb : Ppm.backoff f s with
      | none => rfl
      | some b => exact absurd rfl ((h.backoff s [] hs b).mp hb).1
    rw [wf.backoff_none (h.lt hs) this, wf.ord_u]
  | succ n ih =>
    intro s c hn hs
    have hne : c ≠ [] := by rintro rfl; simp at hn
    obtain ⟨b, hb, hbc⟩ := h.shorter hg hs hne
    rw [(wf.of_backoff hb).2.2.2, ih (by rw [List.length_dropLast]; omega) hbc]

theorem Holds.length (h : Holds K V M ctxs f) (hg : M.Grounded K V) (wf : WF Arith.xr OkR f ord mo V u)
    {s : Nat} {c : List Int} (hs : ctxs[s]? = some c) : ord s = c.length := h.lengthN hg wf _ rfl hs

/-- counted in the memory or not, as in the automaton -/
theorem Holds.count_none (h : Holds K V M ctxs f) {s : Nat} {c : List Int} (hs : ctxs[s]? = some c) {y : Int} (hy0 : 0 ≤ y) (hyV : y ≤ V) :
    count Arith.xr f s y = none ↔ M.count c y = 0 := by
  obtain ⟨k, rfl⟩ := Int.eq_ofNat_of_zero_le hy0
  rw [h.counts s c hs k (by omega)]
  by_cases h0 : M.count c (k : Int) = 0
  · rw [if_pos h0]; exact ⟨fun _ => h0, fun _ => rfl⟩
  · rw [if_neg h0]; exact ⟨fun e => (Option.some_ne_none _ e).elim, fun e => absurd e h0⟩

/-- the contexts where an observation is counted -/
theorem Holds.excluded (h : Holds K V M ctxs f) (hg : M.Grounded K V) {y : Int} (hy0 : 0 ≤ y) (hyV : y ≤ V) :
    ∀ (n : Nat) {s x : Nat} {c : List Int}, c.length = n → ctxs[s]? = some c →
      (Excluded Arith.xr f y s x ↔ ∃ d, ctxs[x]? = some d ∧ M.Counted c y d) := by
  intro n
  induction n with
  | zero =>
    intro s x c hn hs
    have hc : c = [] := List.length_eq_zero_iff.mp hn
    subst hc
    constructor
    · intro hx
      cases hx with
      | here => exact ⟨[], hs, .self⟩
      | lower _ hb _ => exact absurd rfl ((h.backoff s [] hs _).mp hb).1
    · rintro ⟨d, hd, hcd⟩
      have : d = [] := List.prefix_nil.mp hcd.1
      subst this
      rw [h.inj hd hs]; exact .here
  | succ n ih =>
    intro s x c hn hs
    have hne : c ≠ [] := by rintro rfl; simp at hn
    obtain ⟨b, hb, hbc⟩ := h.shorter hg hs hne
    have hi := ih (x := x) (by rw [List.length_dropLast]; omega) hbc
    constructor
    · intro hx
      cases hx with
      | here => exact ⟨c, hs, .self⟩
      | lower h0 hb' hx =>
        rw [hb] at hb'
        injection hb' with hb'
        subst hb'
        obtain ⟨d, h1, h2⟩ := hi.mp hx
        exact ⟨d, h1, .lower ((h.count_none hs hy0 hyV).mp h0) h2⟩
    · rintro ⟨d, hd, hcd⟩
      by_cases hdc : d = c
      · subst hdc
        rw [h.inj hd hs]; exact .here
      · have h0 : M.count c y = 0 := hcd.2 c hcd.1 List.prefix_rfl (fun e => hdc e.symm)
        refine .lower ((h.count_none hs hy0 hyV).mpr h0) hb (hi.mpr ⟨d, hd, prefix_dropLast hcd.1 hdc, ?_⟩)
        exact fun e h1 h2 h3 => hcd.2 e h1 (h2.trans (List.dropLast_prefix c)) h3

theorem take_cons_length {y : Int} {e : List Int} (h : e.length + 1 < K) : (y :: e).take (K - 1) = y :: e :=
  List.take_of_length_le (by simp only [List.length_cons]; omega)

theorem take_cons_full {y : Int} {e : List Int} (h : e.length + 1 = K) (hne : e ≠ []) :
    (y :: e).take (K - 1) = y :: e.dropLast := by
  have : 0 < e.length := List.length_pos_of_ne_nil hne
  obtain ⟨k, hk⟩ : ∃ k, K - 1 = k + 1 := ⟨K - 2, by omega⟩
  rw [hk, List.take_succ_cons, List.dropLast_eq_take]
  congr 2
  omega

/-! ## One observation -/

section
variable {c c' : Core XR} {ord' : Nat → Nat} {s : Nat} {y : Int} {cs : List Int}

/-- The contexts of the new states: that of the state the symbol was counted at, with the symbol. -/
def newContexts (ctxs : List (List Int)) (y : Int) (n n' : Nat) (x : Nat → Nat) : List (List Int) :=
  (List.range (n' - n)).map fun i => y :: (ctxs[x (n + i)]?).getD []

/-- What is known of the observation, with a choice of the state each new one belongs to. -/
structure Observing (K V u : Nat) (M : Memory) (ctxs : List (List Int)) (c c' : Core XR) (ord ord' : Nat → Nat)
    (s : Nat) (y : Int) (cs : List Int) (x : Nat → Nat) : Prop where
  holds : Holds K V M ctxs c.fst
  grounded : M.Grounded K V
  order : c.maxOrder = K
  two : 2 ≤ K
  wf : WF Arith.xr OkR c.fst ord c.maxOrder V u
  obs : Observed Arith.xr OkR c c' ord ord' V u s y
  at' : ctxs[s]? = some cs
  pos : 0 ≤ y
  le : y ≤ V
  chosen : ∀ t, c.fst.states.length ≤ t → t < c'.fst.states.length → Excluded Arith.xr c.fst y s (x t) ∧
    target c'.fst (x t) y = some t ∧ (ord (x t) : Int) + 1 < c.maxOrder ∧ ord' t = ord (x t) + 1

namespace Observing
variable {x : Nat → Nat} (h : Observing K V u M ctxs c c' ord ord' s y cs x)
include h

theorem excluded_iff {z : Nat} : Excluded Arith.xr c.fst y s z ↔ ∃ d, ctxs[z]? = some d ∧ M.Counted cs y d :=
  h.holds.excluded h.grounded h.pos h.le _ rfl h.at'

theorem length {z : Nat} {d : List Int} (hz : ctxs[z]? = some d) : ord z = d.length := h.holds.length h.grounded h.wf hz

theorem counted_known {d : List Int} (hd : M.Counted cs y d) : M.known d :=
  h.grounded.prefix (h.holds.known h.at') hd.1

/-- all the contexts afterwards -/
theorem old {z : Nat} {d : List Int} (hz : ctxs[z]? = some d) :
    (ctxs ++ newContexts ctxs y c.fst.states.length c'.fst.states.length x)[z]? = some d := by
  have hl := h.holds.len
  rw [List.getElem?_append_left (by have := lt_of_getElem?_eq_some hz; omega)]; exact hz

theorem old_iff {z : Nat} {d : List Int} (hz : z < c.fst.states.length) :
    (ctxs ++ newContexts ctxs y c.fst.states.length c'.fst.states.length x)[z]? = some d ↔ ctxs[z]? = some d := by
  rw [List.getElem?_append_left (by rw [← h.holds.len]; exact hz)]

theorem new {t : Nat} (h1 : c.fst.states.length ≤ t) (h2 : t < c'.fst.states.length) :
    ∃ e, ctxs[x t]? = some e ∧ M.Counted cs y e ∧ e.length + 1 < K ∧ y ≠ 0 ∧ ord' t = (y :: e).length ∧
      (ctxs ++ newContexts ctxs y c.fst.states.length c'.fst.states.length x)[t]? = some (y :: e) := by
  obtain ⟨k1, k2, k3, k4⟩ := h.chosen t h1 h2
  obtain ⟨e, he, hc⟩ := h.excluded_iff.mp k1
  have hl := h.length he
  have ho := h.order
  refine ⟨e, he, hc, by omega, ?_, by rw [k4, hl]; rfl, ?_⟩
  · intro hy
    have := h.obs.ended hy
    omega
  · rw [List.getElem?_append_right (by rw [← h.holds.len]; exact h1), ← h.holds.len]
    unfold newContexts
    rw [List.getElem?_map, List.getElem?_range (by omega)]
    simp only [Option.map_some]
    rw [show c.fst.states.length + (t - c.fst.states.length) = t by omega, he]
    rfl

theorem length' {t : Nat} {d : List Int}
    (ht : (ctxs ++ newContexts ctxs y c.fst.states.length c'.fst.states.length x)[t]? = some d) : ord' t = d.length := by
  by_cases hlt : t < c.fst.states.length
  · rw [h.obs.sameOrd t hlt]; exact h.length ((h.old_iff hlt).mp ht)
  · have h2 : t < c'.fst.states.length := by
      have := lt_of_getElem?_eq_some ht
      have hl := h.obs.len
      rw [List.length_append, newContexts, List.length_map, List.length_range, ← h.holds.len] at this
      omega
    obtain ⟨e, _, _, _, _, h3, h4⟩ := h.new (by omega) h2
    rw [ht] at h4
    injection h4 with h4
    rw [h4, h3]

/-- the context of a new state does not depend on the choice -/
theorem new_of {t z : Nat} {e : List Int} (h1 : c.fst.states.length ≤ t) (h2 : t < c'.fst.states.length)
    (hz : ctxs[z]? = some e) (hc : M.Counted cs y e) (ho : ord' t = ord z + 1) :
    (ctxs ++ newContexts ctxs y c.fst.states.length c'.fst.states.length x)[t]? = some (y :: e) := by
  obtain ⟨e', _, k2, _, _, k5, k6⟩ := h.new h1 h2
  rw [k6]
  have hlen : e'.length = e.length := by
    rw [k5, List.length_cons, h.length hz] at ho
    omega
  rw [List.prefix_iff_eq_take.mp k2.1, List.prefix_iff_eq_take.mp hc.1, hlen]

/-- where the symbol leads, and where a new context backs off to -/
theorem leads (hy : y ≠ 0) : ∀ (n : Nat) {z : Nat} {e : List Int}, e.length = n → ctxs[z]? = some e → M.Counted cs y e →
    ∃ t : Nat, target c'.fst z y = some t ∧
      (ctxs ++ newContexts ctxs y c.fst.states.length c'.fst.states.length x)[t]? = some ((y :: e).take (K - 1)) ∧
      (c.fst.states.length ≤ t → e.length + 1 < K → ∃ b : Nat, backoff c'.fst t = some b ∧
        (ctxs ++ newContexts ctxs y c.fst.states.length c'.fst.states.length x)[b]? = some (y :: e).dropLast) := by
  intro n
  have hord := h.order
  have h2 := h.two
  have hpos : 0 < y := by have := h.pos; omega
  induction n with
  | zero =>
    intro z e hn hz hc
    have he : e = [] := List.length_eq_zero_iff.mp hn
    subst he
    have hex : Excluded Arith.xr c.fst y s z := h.excluded_iff.mpr ⟨[], hz, hc⟩
    have hcnt : 0 < M.count [] y := by
      have := h.grounded.all y.toNat (by have := h.le; omega)
      rwa [show ((y.toNat : Nat) : Int) = y by omega] at this
    have hsome : (count Arith.xr c.fst z y).isSome = true := by
      cases hn : count Arith.xr c.fst z y with
      | some w => rfl
      | none => have := (h.holds.count_none hz h.pos h.le).mp hn; omega
    have hoz := h.length hz
    obtain ⟨d0, ht, hd⟩ := h.holds.target z [] hz y hpos h.le hcnt
    have hled := h.obs.found hy z d0 hex hsome ht
    rcases hd with hd | ⟨_, rfl, hunk⟩
    · have hlt := h.holds.lt hd
      have hod : ord' d0 = 1 := by
        rw [h.obs.sameOrd d0 hlt, h.length hd, take_cons_length (by simp only [List.length_nil]; omega)]; rfl
      refine ⟨d0, hled.old (by simp only [List.length_nil] at hoz; omega), h.old hd, fun hge => by omega⟩
    · obtain ⟨t, k1, k2, k3, k4, k5⟩ := hled.new ⟨h.obs.sameOrd _ (h.holds.lt hz), by
        simp only [List.length_nil] at hoz; omega⟩
      refine ⟨t, k1, ?_, fun _ _ => ⟨_, k4, h.old hz⟩⟩
      rw [take_cons_length (by simp only [List.length_nil]; omega)]
      exact h.new_of k2 k3 hz hc k5
  | succ n ih =>
    intro z e hn hz hc
    have hne : e ≠ [] := by rintro rfl; simp at hn
    have hex : Excluded Arith.xr c.fst y s z := h.excluded_iff.mpr ⟨e, hz, hc⟩
    have hoz := h.length hz
    have hshort := h.grounded.short e (h.holds.known hz)
    by_cases h0 : M.count e y = 0
    · have hnone := (h.holds.count_none hz h.pos h.le).mpr h0
      obtain ⟨b, hb, hbc⟩ := h.holds.shorter h.grounded hz hne
      obtain ⟨tb, i1, i2, _⟩ := ih (by rw [List.length_dropLast]; omega) hbc (hc.next h0)
      rw [take_cons_length (by rw [List.length_dropLast]; omega)] at i2
      obtain ⟨d, k1, k2⟩ := h.obs.lower hy z b hex hnone hb
      rw [i1] at k1
      injection k1 with k1
      subst k1
      have hob := h.length' i2
      rw [List.length_cons, List.length_dropLast] at hob
      by_cases hroom : e.length + 1 < K
      · obtain ⟨t, l1, l2, l3, l4, l5⟩ := k2.new ⟨by omega, by omega⟩
        refine ⟨t, l1, ?_, fun _ _ => ⟨tb, l4, ?_⟩⟩
        · rw [take_cons_length hroom]
          exact h.new_of l2 l3 hz hc l5
        · rw [i2]
          obtain ⟨a, l, rfl⟩ := List.exists_cons_of_ne_nil hne
          rfl
      · refine ⟨tb, k2.old (by omega), ?_, fun _ hlt => absurd hlt hroom⟩
        rw [take_cons_full (by omega) hne]; exact i2
    · have hsome : (count Arith.xr c.fst z y).isSome = true := by
        cases hn : count Arith.xr c.fst z y with
        | some w => rfl
        | none => exact absurd ((h.holds.count_none hz h.pos h.le).mp hn) h0
      obtain ⟨d0, ht, hd⟩ := h.holds.target z e hz y hpos h.le (by omega)
      have hled := h.obs.found hy z d0 hex hsome ht
      rcases hd with hd | ⟨hnil, _⟩
      · have hlt := h.holds.lt hd
        have hod := h.obs.sameOrd d0 hlt
        have hol := h.length hd
        rw [List.length_take, List.length_cons] at hol
        exact ⟨d0, hled.old (by omega), h.old hd, fun hge => by omega⟩
      · exact absurd hnil hne

theorem lt' {t : Nat} {d : List Int}
    (ht : (ctxs ++ newContexts ctxs y c.fst.states.length c'.fst.states.length x)[t]? = some d) : t < c'.fst.states.length := by
  have := lt_of_getElem?_eq_some ht
  have hl := h.obs.len
  rw [List.length_append, newContexts, List.length_map, List.length_range, ← h.holds.len] at this
  omega

/-- new contexts were not known -/
theorem unknown {t : Nat} {e : List Int} (h1 : c.fst.states.length ≤ t) (h2 : t < c'.fst.states.length)
    (he : (ctxs ++ newContexts ctxs y c.fst.states.length c'.fst.states.length x)[t]? = some e) : ¬ M.known e := by
  intro hk
  obtain ⟨e', k1, k2, k3, k4, _, k6⟩ := h.new h1 h2
  rw [he] at k6
  injection k6 with k6
  subst k6
  have hord := h.order
  have hpos : 0 < y := by have := h.pos; omega
  obtain ⟨hex, htt, _, _⟩ := h.chosen t h1 h2
  have hcnt := h.grounded.seen y e' hk k4
  have hsome : (count Arith.xr c.fst (x t) y).isSome = true := by
    cases hn : count Arith.xr c.fst (x t) y with
    | some w => rfl
    | none => have := (h.holds.count_none k1 h.pos h.le).mp hn; omega
  obtain ⟨d0, ht, hd⟩ := h.holds.target (x t) e' k1 y hpos h.le hcnt
  have hled := h.obs.found k4 (x t) d0 hex hsome ht
  rcases hd with hd | ⟨hnil, _, hunk⟩
  · have hlt := h.holds.lt hd
    have hod := h.obs.sameOrd d0 hlt
    have hol := h.length hd
    have hox := h.length k1
    rw [List.length_take, List.length_cons] at hol
    have := hled.old (by omega)
    rw [htt] at this
    injection this with this
    omega
  · subst hnil; exact hunk hk

/-- the contexts of the states are different -/
theorem nodup : (ctxs ++ newContexts ctxs y c.fst.states.length c'.fst.states.length x).Nodup := by
  have key : ∀ (i j : Nat) (d : List Int), i < j →
      (ctxs ++ newContexts ctxs y c.fst.states.length c'.fst.states.length x)[i]? = some d →
      (ctxs ++ newContexts ctxs y c.fst.states.length c'.fst.states.length x)[j]? = some d → False := by
    intro i j d hij hi hj
    have hj' := h.lt' hj
    by_cases hjl : j < c.fst.states.length
    · have := h.holds.inj ((h.old_iff (by omega)).mp hi) ((h.old_iff hjl).mp hj)
      omega
    · by_cases hil : i < c.fst.states.length
      · exact h.unknown (by omega) hj' hj (h.holds.known ((h.old_iff hil).mp hi))
      · obtain ⟨e, k1, _, _, _, _, k6⟩ := h.new (t := i) (by omega) (by omega)
        obtain ⟨e', l1, _, _, _, _, l6⟩ := h.new (t := j) (by omega) hj'
        rw [hi] at k6
        rw [hj, k6] at l6
        injection l6 with l6
        injection l6 with _ l6
        subst l6
        have hx := h.holds.inj k1 l1
        have t1 := (h.chosen i (by omega) (by omega)).2.1
        have t2 := (h.chosen j (by omega) hj').2.1
        rw [hx, t2] at t1
        injection t1 with t1
        omega
  rw [List.nodup_iff_getElem?_ne_getElem?]
  intro i j hij hj heq
  obtain ⟨d, hd⟩ := exists_getElem?_of_lt hj
  exact key i j d hij (heq.trans hd) hd

/-- the contexts afterwards -/
theorem known_iff (d : List Int) :
    d ∈ ctxs ++ newContexts ctxs y c.fst.states.length c'.fst.states.length x ↔ (M.observe K cs y).known d := by
  constructor
  · intro hd
    obtain ⟨t, ht⟩ := List.getElem?_of_mem hd
    by_cases hlt : t < c.fst.states.length
    · exact .inl (h.holds.known ((h.old_iff hlt).mp ht))
    · obtain ⟨e, _, k2, k3, k4, _, k6⟩ := h.new (t := t) (by omega) (h.lt' ht)
      rw [ht] at k6
      injection k6 with k6
      exact .inr ⟨k4, e, k2, by rw [take_cons_length k3]; exact k6⟩
  · rintro (hk | ⟨hy, e, he, rfl⟩)
    · exact List.mem_append_left _ ((h.holds.contexts d).mpr hk)
    · obtain ⟨z, hz⟩ := h.holds.index (h.counted_known he)
      obtain ⟨t, _, ht, _⟩ := h.leads hy _ rfl hz he
      exact List.mem_of_getElem? ht

/-- nothing was counted in the new contexts -/
theorem count_new {t : Nat} {e : List Int} (h1 : c.fst.states.length ≤ t) (h2 : t < c'.fst.states.length)
    (he : (ctxs ++ newContexts ctxs y c.fst.states.length c'.fst.states.length x)[t]? = some e) (z : Int) :
    (M.observe K cs y).count e z = 0 := by
  have hunk := h.unknown h1 h2 he
  unfold Memory.observe
  simp only
  rw [if_neg (fun hc => hunk (h.counted_known hc.2))]
  obtain ⟨e', _, _, k3, _, _, k6⟩ := h.new h1 h2
  rw [he] at k6
  injection k6 with k6
  apply Nat.eq_zero_of_not_pos
  intro hpos
  exact hunk (h.grounded.counted e z hpos (by rw [k6, List.length_cons]; exact k3))

theorem backoff_new {t : Nat} (h1 : c.fst.states.length ≤ t) (h2 : t < c'.fst.states.length) :
    ∃ (e : List Int) (b : Nat), (ctxs ++ newContexts ctxs y c.fst.states.length c'.fst.states.length x)[t]? = some (y :: e) ∧
      Ppm.backoff c'.fst t = some b ∧
      (ctxs ++ newContexts ctxs y c.fst.states.length c'.fst.states.length x)[b]? = some (y :: e).dropLast := by
  obtain ⟨e, k1, k2, k3, k4, k5, k6⟩ := h.new h1 h2
  obtain ⟨t', l1, _, l3⟩ := h.leads k4 _ rfl k1 k2
  have htt := (h.chosen t h1 h2).2.1
  rw [l1] at htt
  injection htt with htt
  subst htt
  obtain ⟨b, b1, b2⟩ := l3 h1 k3
  exact ⟨e, b, k6, b1, b2⟩

theorem grounded' : (M.observe K cs y).Grounded K V := by
  have h2 := h.two
  have hcases : ∀ d, (M.observe K cs y).known d → M.known d ∨ ∃ (t : Nat) (e b : _), d = y :: e ∧ y ≠ 0 ∧ M.Counted cs y e ∧
      e.length + 1 < K ∧ Ppm.backoff c'.fst t = some b ∧
      (ctxs ++ newContexts ctxs y c.fst.states.length c'.fst.states.length x)[b]? = some (y :: e).dropLast := by
    intro d hd
    obtain ⟨t, ht⟩ := List.getElem?_of_mem ((h.known_iff d).mpr hd)
    by_cases hlt : t < c.fst.states.length
    · exact .inl (h.holds.known ((h.old_iff hlt).mp ht))
    · obtain ⟨e, b, k1, k2, k3⟩ := h.backoff_new (t := t) (by omega) (h.lt' ht)
      obtain ⟨e', _, l2, l3, l4, _, l6⟩ := h.new (t := t) (by omega) (h.lt' ht)
      rw [k1] at l6
      injection l6 with l6
      injection l6 with _ l6
      subst l6
      rw [ht] at k1
      injection k1 with k1
      exact .inr ⟨t, e, b, k1, l4, l2, l3, k2, k3⟩
  refine ⟨?_, ?_, .inl h.grounded.start, ?_, ?_, ?_, ?_, ?_⟩
  · intro d hd
    rcases hcases d hd with hk | ⟨t, e, b, rfl, _, _, k3, _⟩
    · exact h.grounded.short d hk
    · exact k3
  · intro d hd
    rcases hcases d hd with hk | ⟨t, e, b, rfl, _, _, _, _, k5⟩
    · exact .inl (h.grounded.closed d hk)
    · exact (h.known_iff _).mp (List.mem_of_getElem? k5)
  · intro z d hd hz
    rcases hcases _ hd with hk | ⟨t, e, b, heq, _, k2, _⟩
    · exact lt_of_lt_of_le (h.grounded.seen z d hk hz) (M.observe_mono K cs y d z)
    · injection heq with h1 h2
      subst h1; subst h2
      show 0 < if z = z ∧ M.Counted cs z d then M.count d z + 1 else M.count d z
      rw [if_pos ⟨rfl, k2⟩]; omega
  · intro z d hd
    rcases hcases _ hd with hk | ⟨t, e, b, heq, _⟩
    · exact h.grounded.labels z d hk
    · injection heq with h1 _
      rw [h1]; exact ⟨h.pos, h.le⟩
  · intro d z hpos hlen
    by_cases hc : z = y ∧ M.Counted cs y d
    · exact .inl (h.counted_known hc.2)
    · refine .inl (h.grounded.counted d z ?_ hlen)
      have : (M.observe K cs y).count d z = M.count d z := if_neg hc
      omega
  · intro z hz
    exact lt_of_lt_of_le (h.grounded.all z hz) (M.observe_mono K cs y [] z)
  · intro d hd
    rcases hcases _ hd with hk | ⟨t, e, b, heq, hy, _⟩
    · exact h.grounded.origin d hk
    · injection heq with h1 _
      exact absurd h1.symm hy

theorem holds' : Holds K V (M.observe K cs y) (ctxs ++ newContexts ctxs y c.fst.states.length c'.fst.states.length x) c'.fst := by
  have h2 := h.two
  have hlen := h.obs.len
  have inj : ∀ {i j : Nat} {d : List Int},
      (ctxs ++ newContexts ctxs y c.fst.states.length c'.fst.states.length x)[i]? = some d →
      (ctxs ++ newContexts ctxs y c.fst.states.length c'.fst.states.length x)[j]? = some d → i = j :=
    fun hi hj => ctxs_inj h.nodup hi hj
  refine ⟨h.nodup, h.known_iff, ?_, ?_, ?_, ?_, ?_⟩
  · rw [List.length_append, newContexts, List.length_map, List.length_range, ← h.holds.len]; omega
  · rw [h.obs.start]; exact h.old h.holds.start
  · intro z d hz k hk
    by_cases hlt : z < c.fst.states.length
    · have hd := (h.old_iff hlt).mp hz
      have hold := h.holds.counts z d hd k hk
      by_cases hc : (k : Int) = y ∧ M.Counted cs y d
      · have hex := h.excluded_iff.mpr ⟨d, hd, hc.2⟩
        have hM : (M.observe K cs y).count d k = M.count d k + 1 := if_pos hc
        rw [hM, if_neg (by omega), hc.1, h.obs.count_self z hex, ← hc.1, hold]
        congr 1
        by_cases h0 : M.count d k = 0
        · rw [if_pos h0, h0]
          show Arith.xr.one = _
          norm_num [costOf_one]
        · rw [if_neg h0]
          show Arith.xr.nls _ Arith.xr.one = _
          rw [nls_one (by positivity)]
          push_cast; rfl
      · have hM : (M.observe K cs y).count d k = M.count d k := if_neg hc
        rw [hM, ← hold]
        by_cases hk : (k : Int) = y
        · have hnex : ¬ Excluded Arith.xr c.fst y s z := by
            intro hex
            obtain ⟨d', hd', hcd⟩ := h.excluded_iff.mp hex
            rw [hd] at hd'
            injection hd' with hd'
            subst hd'
            exact hc ⟨hk, hcd⟩
          exact count_congr (h.obs.outside z hlt hnex) _
        · exact h.obs.count_other z k hlt hk
    · have hzt := h.lt' hz
      rw [h.count_new (by omega) hzt hz, if_pos rfl]
      exact (h.obs.fresh z (by omega) hzt).1 _
  · intro z d hz b
    by_cases hlt : z < c.fst.states.length
    · have hd := (h.old_iff hlt).mp hz
      rw [h.obs.sameBackoff z hlt, h.holds.backoff z d hd b]
      constructor
      · rintro ⟨h1, h3⟩; exact ⟨h1, h.old h3⟩
      · rintro ⟨h1, h3⟩
        obtain ⟨b', _, hb'⟩ := h.holds.shorter h.grounded hd h1
        rw [inj h3 (h.old hb')]
        exact ⟨h1, hb'⟩
    · obtain ⟨e, b', k1, k2, k3⟩ := h.backoff_new (t := z) (by omega) (h.lt' hz)
      rw [hz] at k1
      injection k1 with k1
      subst k1
      rw [k2]
      constructor
      · intro hb
        injection hb with hb
        subst hb
        exact ⟨by simp, k3⟩
      · rintro ⟨_, h3⟩
        rw [inj h3 k3]
  · intro z d hz w hw0 hwV hpos
    by_cases hlt : z < c.fst.states.length
    · have hd := (h.old_iff hlt).mp hz
      by_cases hwy : w = y
      · subst hwy
        by_cases hc : M.Counted cs w d
        · obtain ⟨t, k1, k2, _⟩ := h.leads (by omega) _ rfl hd hc
          exact ⟨t, k1, .inl k2⟩
        · have hM : (M.observe K cs w).count d w = M.count d w := if_neg (fun e => hc e.2)
          rw [hM] at hpos
          have hnex : ¬ Excluded Arith.xr c.fst w s z := by
            intro hex
            obtain ⟨d', hd', hcd⟩ := h.excluded_iff.mp hex
            rw [hd] at hd'
            injection hd' with hd'
            subst hd'
            exact hc hcd
          obtain ⟨t, k1, k2⟩ := h.holds.target z d hd w hw0 hwV hpos
          refine ⟨t, ?_, ?_⟩
          · rw [← k1]; simp only [Ppm.target]; rw [h.obs.outside z hlt hnex, h.obs.start]
          · rcases k2 with k2 | ⟨rfl, rfl, hunk⟩
            · exact .inl (h.old k2)
            · refine .inr ⟨rfl, rfl, ?_⟩
              rintro (hk | ⟨_, e, he, hte⟩)
              · exact hunk hk
              · have hke := h.counted_known he
                obtain ⟨ze, hze⟩ := h.holds.index hke
                by_cases hne : e = []
                · subst hne; exact hc he
                · by_cases h0 : M.count e w = 0
                  · -- the shorter ones are counted, down to the empty one
                    have hl := congrArg List.length hte
                    have hsh := h.grounded.short e hke
                    rw [List.length_take, List.length_cons] at hl
                    simp only [List.length_cons, List.length_nil] at hl
                    have he1 : 0 < e.length := List.length_pos_of_ne_nil hne
                    have hdl : e.dropLast = [] := by
                      apply List.length_eq_zero_iff.mp
                      rw [List.length_dropLast]; omega
                    have := he.next h0
                    rw [hdl] at this
                    exact hc this
                  · obtain ⟨t', _, k4⟩ := h.holds.target ze e hze w hw0 hwV (by omega)
                    rcases k4 with k4 | ⟨hnil, _⟩
                    · rw [← hte] at k4
                      exact hunk (h.holds.known k4)
                    · exact hne hnil
      · have hM : (M.observe K cs y).count d w = M.count d w := if_neg (fun e => hwy e.1)
        rw [hM] at hpos
        obtain ⟨t, k1, k2⟩ := h.holds.target z d hd w hw0 hwV hpos
        refine ⟨t, by rw [h.obs.target_other z w hlt hwy]; exact k1, ?_⟩
        rcases k2 with k2 | ⟨rfl, rfl, hunk⟩
        · exact .inl (h.old k2)
        · refine .inr ⟨rfl, rfl, ?_⟩
          rintro (hk | ⟨_, e, _, hte⟩)
          · exact hunk hk
          · obtain ⟨k, hk⟩ : ∃ k, K - 1 = k + 1 := ⟨K - 2, by omega⟩
            rw [hk, List.take_succ_cons] at hte
            injection hte with hte _
            exact hwy hte
    · rw [h.count_new (by omega) (h.lt' hz) hz] at hpos
      exact absurd hpos (by omega)

end Observing

/-- An observation in the automaton is one in the memory. -/
theorem Holds.observe (h : Holds K V M ctxs c.fst) (hg : M.Grounded K V) (hK : c.maxOrder = K) (h2 : 2 ≤ K)
    (wf : WF Arith.xr OkR c.fst ord c.maxOrder V u) (hobs : Observed Arith.xr OkR c c' ord ord' V u s y)
    (hs : ctxs[s]? = some cs) (hy0 : 0 ≤ y) (hyV : y ≤ V) :
    ∃ new, Holds K V (M.observe K cs y) (ctxs ++ new) c'.fst ∧ (M.observe K cs y).Grounded K V := by
  have hx : ∀ t, ∃ z, c.fst.states.length ≤ t → t < c'.fst.states.length → Excluded Arith.xr c.fst y s z ∧
      Ppm.target c'.fst z y = some t ∧ (ord z : Int) + 1 < c.maxOrder ∧ ord' t = ord z + 1 := by
    intro t
    by_cases ht : c.fst.states.length ≤ t ∧ t < c'.fst.states.length
    · obtain ⟨z, hz⟩ := hobs.grown t ht.1 ht.2
      exact ⟨z, fun _ _ => hz⟩
    · exact ⟨0, fun h1 h2 => absurd ⟨h1, h2⟩ ht⟩
  choose x hx using hx
  have ho : Observing K V u M ctxs c c' ord ord' s y cs x := ⟨h, hg, hK, h2, wf, hobs, hs, hy0, hyV, hx⟩
  exact ⟨_, ho.holds', ho.grounded'⟩

end

end Mozolm.Ppm
