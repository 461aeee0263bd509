import Verif.Ppm.MemoryRun

/-!
# The contexts an automaton holds are determined by it
-/

namespace Mozolm.Ppm
variable {K V u : Nat} {M M' : Memory} {ctxs ctxs' : List (List Int)} {f : Fst XR} {ord : Nat → Nat} {mo : Int}

theorem Holds.agree (h : Holds K V M ctxs f) (h' : Holds K V M' ctxs' f) (hg : M.Grounded K V) (hg' : M'.Grounded K V)
    (wf : WF Arith.xr OkR f ord mo V u) (n : Nat) : ∀ {s : Nat} {c c' : List Int}, c.length = n → ctxs[s]? = some c →
    ctxs'[s]? = some c' → c = c' := by
  induction n using Nat.strongRecOn with
  | ind n ih =>
    intro s c c' hn hc hc'
    have hlen : c.length = c'.length := (h.length hg wf hc).symm.trans (h'.length hg' wf hc')
    cases c with
    | nil => exact (List.length_eq_zero_iff.mp hlen.symm).symm
    | cons z d =>
      by_cases hz : z = 0
      · subst hz
        have hd := hg.origin d (h.known hc)
        subst hd
        have hs := h.inj hc h.start
        subst hs
        rw [h'.start] at hc'
        exact Option.some.inj hc'
      · have hk := h.known hc
        have hpos := hg.seen z d hk hz
        have hshort := hg.short _ hk
        simp only [List.length_cons] at hshort hn
        have hd := hg.counted d z hpos (by omega)
        obtain ⟨hz0, hzV⟩ := hg.labels z d hk
        obtain ⟨x, hx⟩ := h.index hd
        obtain ⟨d', hx'⟩ := h'.context (h.lt hx)
        have hdd := ih d.length (by omega) rfl hx hx'
        subst hdd
        obtain ⟨t, t1, t2⟩ := h.target x d hx z (by omega) hzV hpos
        have hts : t = s := by
          rcases t2 with t2 | ⟨rfl, _, t3⟩
          · rw [take_cons_length (by omega)] at t2
            exact h.inj t2 hc
          · exact absurd hk t3
        subst hts
        have hpos' : 0 < M'.count d z := by
          obtain ⟨y, rfl⟩ := Int.eq_ofNat_of_zero_le hz0
          have e := h.counts x d hx y (by omega)
          rw [h'.counts x d hx' y (by omega)] at e
          by_cases h0 : M'.count d (y : Nat) = 0
          · rw [if_pos h0, if_neg (by omega)] at e; cases e
          · omega
        obtain ⟨t', t1', t2'⟩ := h'.target x d hx' z (by omega) hzV hpos'
        rw [t1] at t1'
        injection t1' with t1'
        subst t1'
        rcases t2' with t2' | ⟨rfl, rfl, _⟩
        · rw [take_cons_length (by omega), hc'] at t2'
          exact (Option.some.inj t2').symm
        · rw [hx] at hc; cases hc

/-- The same automaton has the same contexts. -/
theorem Holds.unique (h : Holds K V M ctxs f) (h' : Holds K V M' ctxs' f) (hg : M.Grounded K V) (hg' : M'.Grounded K V)
    (wf : WF Arith.xr OkR f ord mo V u) : ctxs = ctxs' := by
  refine List.ext_getElem? fun s => ?_
  by_cases hs : s < f.states.length
  · obtain ⟨c, hc⟩ := h.context hs
    obtain ⟨c', hc'⟩ := h'.context hs
    rw [hc, hc', h.agree h' hg hg' wf _ rfl hc hc']
  · rw [List.getElem?_eq_none (by rw [← h.len]; omega), List.getElem?_eq_none (by rw [← h'.len]; omega)]

end Mozolm.Ppm
