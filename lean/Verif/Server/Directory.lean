import Verif.Hub.Directory
import Verif.Server.HandlerLemmas

/-! # Lemmas: requests and the directory of texts -/

namespace Mozolm.Hub
variable {A : Arith} {σ : Type} {env : Env A σ}

theorem visits_mem (cs : List Int) : ∀ {ts : List (List Int)} {t : List Int}, t ∈ ts → t ++ cs ∈ visits ts t cs := by
  induction cs with
  | nil => intro ts t h; simpa [visits] using h
  | cons c cs ih =>
    intro ts t _
    have := ih (visit_mem ts t c)
    simpa [visits] using this

theorem visits_length (cs : List Int) : ∀ (ts : List (List Int)) (t : List Int),
    (visits ts t cs).length ≤ ts.length + cs.length := by
  induction cs with
  | nil => intro ts t; exact Nat.le_refl _
  | cons c cs ih =>
    intro ts t
    have h1 := ih (visit ts t c) (t ++ [c])
    have h2 : (visit ts t c).length ≤ ts.length + 1 := by
      unfold visit; split <;> simp
    simp only [visits, List.length_cons]
    omega

/-- visiting what was visited changes nothing -/
theorem visits_again (cs : List Int) : ∀ {ts ts' : List (List Int)} {t : List Int}, visits ts t cs <+: ts' → visits ts' t cs = ts' := by
  induction cs with
  | nil => intro ts ts' t _; rfl
  | cons c cs ih =>
    intro ts ts' t h
    have hm : t ++ [c] ∈ ts' := ((visits_prefix cs _ _).trans h).subset (visit_mem ts t c)
    simp only [visits]
    rw [show visit ts' t c = ts' from if_pos hm]
    exact ih h

theorem sourceText_get {ts : List (List Int)} {k : Nat} {t : List Int} (h : ts[k]? = some t) : sourceText ts (k : Int) = t := by
  unfold sourceText
  rw [if_neg (by omega), Int.toNat_natCast, h]; rfl

theorem Indexed.source_mem {h : Hub A σ} {ts : List (List Int)} (hx : Indexed h ts) (s : Int) : sourceText ts s ∈ ts :=
  List.mem_of_getElem? (hx.source s)

theorem Indexed.stem {h : Hub A σ} {ts : List (List Int)} (hx : Indexed h ts) {t : List Int} (cs : List Int) :
    t ++ cs ∈ ts → t ∈ ts := by
  suffices H : ∀ ds : List Int, t ++ ds.reverse ∈ ts → t ∈ ts by
    intro hm; exact H cs.reverse (by simpa using hm)
  intro ds
  induction ds with
  | nil => intro hm; simpa using hm
  | cons c ds ih =>
    intro hm
    rw [List.reverse_cons, ← List.append_assoc] at hm
    exact ih (hx.closed _ c hm)

/-- The transitions lead from text to text. -/
theorem Indexed.path {h : Hub A σ} {ts : List (List Int)} (hx : Indexed h ts) (cs : List Int) :
    ∀ {s k : Nat} {t : List Int}, ts[s]? = some t → ts[k]? = some (t ++ cs) → IsPath h s cs k := by
  induction cs with
  | nil =>
    intro s k t hs hk
    exact nodup_get hx.nodup hs (by simpa using hk)
  | cons c cs ih =>
    intro s k t hs hk
    have hk' : ts[k]? = some ((t ++ [c]) ++ cs) := by simpa using hk
    have hm : t ++ [c] ∈ ts := hx.stem cs (List.mem_of_getElem? hk')
    obtain ⟨m, hm'⟩ := List.mem_iff_getElem?.1 hm
    obtain ⟨st, hst⟩ := exists_getElem?_of_lt (l := h.states) (i := s) (by rw [hx.len]; exact lt_of_getElem?_eq_some hs)
    exact ⟨st, m, hst, (hx.edge s st t hst hs c m).2 hm', ih hm' hk'⟩

theorem Indexed.revisit {h : Hub A σ} {ts : List (List Int)} (hx : Indexed h ts) (cs : List Int) : ∀ {t : List Int}, t ++ cs ∈ ts → visits ts t cs = ts := by
  induction cs with
  | nil => intro t _; rfl
  | cons c cs ih =>
    intro t hm
    have hm' : (t ++ [c]) ++ cs ∈ ts := by simpa using hm
    simp only [visits]
    rw [show visit ts t c = ts from if_pos (hx.stem cs hm')]
    exact ih hm'

/-- A walk visits texts. -/
theorem Indexed.context (hf : env.Fair) {cs : List Int} (hcs : ∀ c ∈ cs, 0 ≤ c) :
    ∀ {h h' : Hub A σ} {ts : List (List Int)} {s r : Int}, Indexed h ts → Inv h → contextLoop env h s cs = .ok (r, h') →
    (visits ts (sourceText ts s) cs).length ≤ h.max →
    Indexed h' (visits ts (sourceText ts s) cs) ∧ Inv h' ∧ h'.max = h.max ∧
      ((cs ≠ [] ∨ 0 ≤ s ∧ s < ts.length) → ∃ k : Nat, r = k ∧ (visits ts (sourceText ts s) cs)[k]? = some (sourceText ts s ++ cs)) := by
  induction cs with
  | nil =>
    intro h h' ts s r hx hi he _
    simp only [contextLoop, Except.ok.injEq, Prod.mk.injEq] at he
    obtain ⟨rfl, rfl⟩ := he
    refine ⟨hx, hi, rfl, fun hv => ?_⟩
    obtain ⟨h0, h1⟩ := hv.resolve_left (fun e => e rfl)
    have h2 := hx.source s
    have h3 := source_valid (h := h) h0 (by rw [hx.len]; exact h1)
    exact ⟨Hub.source h s, h3.symm, by simpa [visits] using h2⟩
  | cons c cs ih =>
    intro h h' ts s r hx hi he hroom
    have hc := hcs c (by simp)
    obtain ⟨r1, h1, e, o⟩ := nextState_out hf hi s c
    simp only [contextLoop, e, ok_bind] at he
    simp only [visits] at hroom ⊢
    have hle := (visits_prefix cs (visit ts (sourceText ts s) c) (sourceText ts s ++ [c])).length_le
    obtain ⟨x1, k, rfl, hk⟩ := o.indexed hf hi hc hx (by omega)
    rw [if_neg (by omega)] at he
    have hst := sourceText_get hk
    have g := o.good hf hi
    obtain ⟨a1, a2, a3, a4⟩ := ih (fun c' h' => hcs c' (by simp [h'])) x1 g.inv he (by rw [hst, g.const.max]; exact hroom)
    rw [hst] at a1 a4
    refine ⟨a1, a2, a3.trans g.const.max, fun _ => ?_⟩
    obtain ⟨q, rfl, hq⟩ := a4 (.inr ⟨by omega, by have := lt_of_getElem?_eq_some hk; omega⟩)
    exact ⟨q, rfl, by simpa using hq⟩

/-- `VerifyOrCorrectModelStates` keeps the transitions. -/
theorem Indexed.verify {ts : List (List Int)} (cs : List Int) : ∀ {h h' : Hub A σ} {s : Nat} {b : Bool}, Indexed h ts →
    verifyLoop env h s cs = .ok (b, h') → Indexed h' ts := by
  induction cs with
  | nil =>
    intro h h' s b hx he
    cases he; exact hx
  | cons c cs ih =>
    intro h h' s b hx he
    simp only [verifyLoop] at he
    split at he
    · cases he
    · next st hst =>
      split at he
      · cases he; exact hx
      · next k hk =>
        split at he
        · cases he
        · next kst hkst =>
          obtain ⟨v, e1, e2⟩ := bind_ok.1 he
          have hv : v.2.nexts = kst.nexts := by
            simp only [HubState.verifyOrCorrect] at e1
            split at e1
            · cases e1; rfl
            · split at e1
              · cases e1; rfl
              · cases e1
          have hx' : Indexed { h with states := h.states.set k v.2, models := (nextAll env.toLMOps st c 0 h.models).2 } ts := by
            refine hx.same (by simp) fun i st' hi => ?_
            simp only [List.getElem?_set] at hi
            split at hi
            · next e =>
              subst e
              rw [if_pos (lt_of_getElem?_eq_some hkst)] at hi
              cases hi
              exact ⟨kst, hkst, hv⟩
            · exact ⟨st', hi, rfl⟩
          split at e2
          · exact ih hx' e2
          · cases e2; exact hx'

/-- Counting along texts in the directory. -/
theorem Indexed.update (hf : env.Fair) {h h' : Hub A σ} {ts : List (List Int)} (hx : Indexed h ts) (hi : Inv h) {s n : Int} {cs : List Int}
    {b : Bool} (hcs : ∀ c ∈ cs, 0 ≤ c) (hroom : (visits ts (sourceText ts s) cs).length ≤ h.max)
    (hval : 0 ≤ s → s < (visits ts (sourceText ts s) cs).length → s < ts.length)
    (he : updateLMCounts env h s cs n = .ok (b, h')) : Indexed h' (visits ts (sourceText ts s) cs) := by
  simp only [updateLMCounts] at he
  obtain ⟨h1, e1, he⟩ := bind_ok.1 he
  obtain ⟨h2, e2, he⟩ := bind_ok.1 he
  have x1 : Indexed h1 (visits ts (sourceText ts s) cs) ∧ Inv h1 := by
    rw [Server.walk_ensure, Server.walk_context hf hi hcs] at e1
    obtain ⟨⟨r, ha⟩, e3, e4⟩ := bind_ok.1 e1
    cases e4
    obtain ⟨a1, a2, _⟩ := Indexed.context hf hcs hx hi e3 hroom
    exact ⟨a1, a2⟩
  obtain ⟨x1, i1⟩ := x1
  have hm := visits_mem cs (hx.source_mem s)
  have hsame : (visits ts (sourceText ts s) cs)[Hub.source h s]? = some (sourceText ts s) := prefix_get (visits_prefix _ _ _) (hx.source s)
  generalize hts : visits ts (sourceText ts s) cs = us at *
  have x2 : Indexed h2 us := by
    split at e2
    · cases cs with
      | nil => cases e2; exact x1
      | cons c cs =>
        have e2' := e2
        simp only [historyLoop] at e2
        split at e2
        · cases e2
        · next h0 =>
          split at e2
          · cases e2
          · next st hst =>
            obtain ⟨k, hk⟩ := List.mem_iff_getElem?.1 hm
            have hsl : s < h1.states.length := by have := lt_of_getElem?_eq_some hst; omega
            have hv := source_valid (h := h1) (s := s) (by omega) hsl
            have hv0 := source_valid (h := h) (s := s) (by omega) (by rw [hx.len]; exact hval (by omega) (by rw [← x1.len]; exact hsl))
            have hsn : Hub.source h1 s = Hub.source h s := by omega
            rw [hsn] at hv
            have hp := x1.path (c :: cs) hsame hk
            obtain ⟨h3, e3, f3, _⟩ := historyLoop_path hf i1 hp
            rw [hv, e2'] at e3
            cases e3
            exact f3.indexed x1
    · cases e2; exact x1
  split at he
  · split at he
    · cases he
    · obtain ⟨r, e3, e4⟩ := bind_ok.1 he
      have x3 : Indexed { h2 with models := r.2 } us := x2.same rfl fun i st' hi => ⟨st', hi, rfl⟩
      split at e4
      · exact x3.verify cs e4
      · cases e4; exact x3
  · cases he; exact x2

end Mozolm.Hub

namespace Mozolm.Server
open Hub
variable {A : Arith} {σ : Type} {env : Env A σ}

theorem sourceText_clamp (ts : List (List Int)) (hr : ts[0]? = some []) (s : Int) :
    sourceText ts (if s < 0 then 0 else s) = sourceText ts s := by
  split
  · next h =>
    unfold sourceText
    rw [if_pos h, if_neg (by omega), Int.toNat_zero, hr]; rfl
  · rfl

theorem sourceText_out {ts : List (List Int)} {s : Int} (h : ts.length ≤ s) : sourceText ts s = [] := by
  unfold sourceText
  rw [if_neg (by omega), List.getElem?_eq_none (by omega)]; rfl

/-- One request. -/
theorem indexed_serve (hf : env.Fair) {h h' : Hub A σ} {ts : List (List Int)} (hx : Indexed h ts) (hi : Inv h) {r : Request}
    (hcs : ∀ c ∈ r.text, 0 ≤ c) (he : serve env h r = .ok h') (hroom : (visited ts r).length ≤ h.max) :
    Indexed h' (visited ts r) ∧ Inv h' ∧ h'.max = h.max := by
  cases r with
  | getNextState ctx s =>
    obtain ⟨⟨y, h2⟩, e1, e2⟩ := bind_ok.1 he
    cases e2
    obtain ⟨⟨k, h3⟩, e3, e4⟩ := bind_ok.1 e1
    cases e4
    have hz := sourceText_clamp ts hx.root (toInt32 s)
    obtain ⟨a1, a2, a3, _⟩ := Indexed.context hf hcs hx hi e3 (by rw [hz]; exact hroom)
    rw [hz] at a1
    exact ⟨a1, a2, a3⟩
  | getLMScores ctx s =>
    obtain ⟨⟨y, h2⟩, e1, e2⟩ := bind_ok.1 he
    cases e2
    obtain ⟨⟨k, h3⟩, e3, e4⟩ := bind_ok.1 e1
    obtain ⟨⟨z, h4⟩, e5, e6⟩ := bind_ok.1 e4
    have hz := sourceText_clamp ts hx.root (toInt32 s)
    obtain ⟨a1, a2, a3, _⟩ := Indexed.context hf hcs hx hi e3 (by rw [hz]; exact hroom)
    rw [hz] at a1
    have g := extract_good a2 e5
    obtain ⟨ms, _, e7⟩ := extract_states e5
    have : h2 = h4 := by cases z <;> (cases e6; rfl)
    subst this
    refine ⟨?_, g.inv, g.const.max.trans a3⟩
    subst e7
    exact a1.same rfl fun i st' hi => ⟨st', hi, rfl⟩
  | updateLMScores s cs n =>
    obtain ⟨⟨y, h2⟩, e1, e2⟩ := bind_ok.1 he
    cases e2
    obtain ⟨⟨w, ha⟩, e3, e4⟩ := bind_ok.1 e1
    obtain ⟨⟨u, hb⟩, e5, e6⟩ := bind_ok.1 e4
    have hcs' : ∀ c ∈ cs, 0 ≤ c := hcs
    rw [walk_context hf hi hcs'] at e3
    have hroom' : (visits (visits ts (sourceText ts (toInt32 s)) cs) (sourceText (visits ts (sourceText ts (toInt32 s)) cs) (toInt32 s)) cs).length ≤ h.max := hroom
    have hpre := visits_prefix cs (visits ts (sourceText ts (toInt32 s)) cs) (sourceText (visits ts (sourceText ts (toInt32 s)) cs) (toInt32 s))
    obtain ⟨a1, a2, a3, _⟩ := Indexed.context hf hcs' hx hi e3 (Nat.le_trans hpre.length_le hroom')
    have gb := update_good hf a2 e5
    have hpre0 := visits_prefix cs ts (sourceText ts (toInt32 s))
    have b1 := a1.update hf a2 hcs' (by rw [a3]; exact hroom') (fun h0 h1 => by
      refine Classical.byContradiction fun hn => ?_
      have hle := hpre0.length_le
      have z1 : sourceText (visits ts (sourceText ts (toInt32 s)) cs) (toInt32 s) = [] := sourceText_out (by omega)
      have z2 : sourceText ts (toInt32 s) = [] := sourceText_out (by omega)
      rw [z1, z2, visits_again cs List.prefix_rfl] at h1
      rw [z2] at hn
      exact hn h1) e5
    have : Indexed h2 (visited ts (.updateLMScores s cs n)) ∧ Inv h2 ∧ h2.max = hb.max := by
      cases u with
      | false =>
        simp only [Bool.false_eq_true, if_false, Except.ok.injEq, Prod.mk.injEq] at e6
        rw [← e6.2]; exact ⟨b1, gb.inv, rfl⟩
      | true =>
        simp only [if_true] at e6
        obtain ⟨⟨z, h4⟩, e7, e8⟩ := bind_ok.1 e6
        have g := extract_good gb.inv e7
        obtain ⟨ms, _, e9⟩ := extract_states e7
        have : h2 = h4 := by cases z <;> (cases e8; rfl)
        subst this
        refine ⟨?_, g.inv, g.const.max⟩
        subst e9
        exact b1.same rfl fun i st' hi => ⟨st', hi, rfl⟩
    exact ⟨this.1, this.2.1, this.2.2.trans (gb.const.max.trans a3)⟩

theorem visited_prefix (ts : List (List Int)) (r : Request) : ts <+: visited ts r := by
  cases r with
  | getNextState ctx s => exact visits_prefix _ _ _
  | getLMScores ctx s => exact visits_prefix _ _ _
  | updateLMScores s cs n => exact (visits_prefix _ _ _).trans (visits_prefix _ _ _)

theorem visitedAll_prefix (reqs : List Request) : ∀ ts : List (List Int), ts <+: reqs.foldl visited ts := by
  induction reqs with
  | nil => intro ts; exact List.prefix_rfl
  | cons r rs ih => intro ts; exact (visited_prefix ts r).trans (ih _)

theorem indexed_serveAll (hf : env.Fair) (reqs : List Request) : ∀ {h h' : Hub A σ} {ts : List (List Int)}, Indexed h ts → Inv h →
    Typed reqs → serveAll env h reqs = .ok h' → (reqs.foldl visited ts).length ≤ h.max →
    Indexed h' (reqs.foldl visited ts) ∧ Inv h' ∧ h'.max = h.max := by
  induction reqs with
  | nil =>
    intro h h' ts hx hi _ he _
    cases he; exact ⟨hx, hi, rfl⟩
  | cons r rs ih =>
    intro h h' ts hx hi ht he hroom
    obtain ⟨h1, e1, e2⟩ := bind_ok.1 he
    obtain ⟨a1, a2, a3⟩ := indexed_serve hf hx hi (ht r (by simp)) e1
      (Nat.le_trans (visitedAll_prefix rs _).length_le hroom)
    obtain ⟨b1, b2, b3⟩ := ih a1 a2 (fun r' h' => ht r' (by simp [h'])) e2 (by rw [a3]; exact hroom)
    exact ⟨b1, b2, b3.trans a3⟩

theorem initial_indexed (models : List σ) (ws : List A.C) (hlen mx : Nat) : Indexed (initial env models ws hlen mx) [[]] := by
  refine ⟨rfl, by simp, rfl, fun t c h => ?_, fun i st t hi ht c k => ?_, rfl⟩
  · simp at h
  · cases i with
    | succ i => simp [initial] at hi
    | zero =>
      simp only [initial, List.getElem?_cons_zero, Option.some.injEq] at hi
      subst hi
      refine ⟨fun e => by simp [HubState.mk', HubState.lookup] at e, fun e => ?_⟩
      have := List.mem_of_getElem? e
      simp at this

/-- After any history with room. -/
theorem Reach.indexed (hf : env.Fair) {models : List σ} {cfg : HubConfig A.C} {reqs : List Request} {h : Hub A σ}
    (hr : Reach env models cfg reqs h) (ht : Typed reqs) (hroom : (directory reqs).length ≤ cfgMax cfg) :
    Indexed h (directory reqs) ∧ Inv h ∧ h.max = cfgMax cfg := by
  have g := hr.good hf
  obtain ⟨h0, e1, e2⟩ := hr
  rw [initialize_eq hf] at e1
  split at e1
  · cases e1
  · simp only [Except.ok.injEq, Option.some.injEq] at e1
    subst e1
    exact indexed_serveAll hf reqs (initial_indexed _ _ _ _) (initial_inv _ _ _ _ (cfgMax_ge cfg)) ht e2 hroom

end Mozolm.Server
