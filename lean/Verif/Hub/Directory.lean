import Verif.Hub.Path
import Verif.Server.DirectorySpec

/-!
# Hub: while there is room, the state table is a directory of texts

The directory is in `Server/DirectorySpec.lean`.
-/

namespace Mozolm.Hub
variable {A : Arith} {σ : Type} {env : Env A σ}

/-- The state table is that of the directory. -/
structure Indexed (h : Hub A σ) (ts : List (List Int)) : Prop where
  len : h.states.length = ts.length
  nodup : ts.Nodup
  root : ts[0]? = some []
  closed : ∀ t c, t ++ [c] ∈ ts → t ∈ ts
  edge : ∀ (i : Nat) (st : HubState A.C) (t : List Int), h.states[i]? = some st → ts[i]? = some t →
    ∀ (c : Int) (k : Nat), HubState.lookup st.nexts c = some k ↔ ts[k]? = some (t ++ [c])
  fresh : h.selfRecycled = false

theorem nodup_get {ts : List (List Int)} (h : ts.Nodup) {i k : Nat} {t : List Int} (hi : ts[i]? = some t) (hk : ts[k]? = some t) : i = k := by
  have h1 := lt_of_getElem?_eq_some hi
  have h2 := lt_of_getElem?_eq_some hk
  rw [List.getElem?_eq_getElem h1] at hi
  rw [List.getElem?_eq_getElem h2] at hk
  exact (List.getElem_inj h).1 (by rw [Option.some.inj hi, Option.some.inj hk])

theorem visit_prefix (ts : List (List Int)) (t : List Int) (c : Int) : ts <+: visit ts t c := by
  unfold visit; split
  · exact List.prefix_rfl
  · exact List.prefix_append _ _

theorem visits_prefix (cs : List Int) : ∀ (ts : List (List Int)) (t : List Int), ts <+: visits ts t cs := by
  induction cs with
  | nil => intro ts t; exact List.prefix_rfl
  | cons c cs ih => intro ts t; exact (visit_prefix ts t c).trans (ih _ _)

theorem prefix_get {ts ts' : List (List Int)} (h : ts <+: ts') {i : Nat} {t : List Int} (hi : ts[i]? = some t) : ts'[i]? = some t := by
  obtain ⟨r, rfl⟩ := h
  rw [List.getElem?_append_left (lt_of_getElem?_eq_some hi)]; exact hi

theorem visit_mem (ts : List (List Int)) (t : List Int) (c : Int) : t ++ [c] ∈ visit ts t c := by
  unfold visit; split
  · next h => exact h
  · simp

/-- states and transitions as before -/
theorem Indexed.same {h h' : Hub A σ} {ts : List (List Int)} (hx : Indexed h ts) (hl : h'.states.length = h.states.length)
    (hs : ∀ (i : Nat) (st' : HubState A.C), h'.states[i]? = some st' → ∃ st : HubState A.C, h.states[i]? = some st ∧ st'.nexts = st.nexts)
    (hg : h'.selfRecycled = h.selfRecycled := by rfl) : Indexed h' ts := by
  refine ⟨hl.trans hx.len, hx.nodup, hx.root, hx.closed, fun i st' t hi ht c k => ?_, hg.trans hx.fresh⟩
  obtain ⟨st, e1, e2⟩ := hs i st' hi
  rw [e2]
  exact hx.edge i st t e1 ht c k

theorem Frame.indexed {h h' : Hub A σ} (f : Frame env h h') {ts : List (List Int)} (hx : Indexed h ts) : Indexed h' ts :=
  hx.same f.len (fun i st' hi => by
    obtain ⟨st, e1, e2, _⟩ := f.st i st' hi
    exact ⟨st, e1, e2⟩) f.ghost

theorem Indexed.source {h : Hub A σ} {ts : List (List Int)} (hx : Indexed h ts) (s : Int) :
    ts[source h s]? = some (sourceText ts s) := by
  unfold Hub.source sourceText Hub.valid
  by_cases h0 : s < 0
  · rw [if_neg (by simp; omega), if_pos h0]; exact hx.root
  · rw [if_neg h0]
    by_cases h1 : s.toNat < ts.length
    · rw [if_pos (by simp [hx.len]; omega), List.getElem?_eq_getElem h1]; rfl
    · have e : (ts[s.toNat]?).getD [] = [] := by rw [List.getElem?_eq_none (by omega)]; rfl
      rw [e, if_neg (by simp [hx.len]; omega)]; exact hx.root

theorem lookup_append_ne {c d : Int} {k : Nat} (hdc : d ≠ c) : ∀ l : List (Int × Nat),
    HubState.lookup (l ++ [(c, k)]) d = HubState.lookup l d
  | [] => by simp [HubState.lookup, Ne.symm hdc]
  | (a, b) :: l => by
    simp only [List.cons_append, HubState.lookup]
    split
    · rfl
    · exact lookup_append_ne hdc l

/-- `NextState` visits a text. -/
theorem NextOut.indexed (hf : env.Fair) {h h' : Hub A σ} (hi : Inv h) {s c r : Int} (ho : NextOut env h s c r h') (hc : 0 ≤ c)
    {ts : List (List Int)} (hx : Indexed h ts) (hroom : (visit ts (sourceText ts s) c).length ≤ h.max) :
    Indexed h' (visit ts (sourceText ts s) c) ∧ ∃ k : Nat, r = k ∧
      (visit ts (sourceText ts s) c)[k]? = some (sourceText ts s ++ [c]) := by
  have hsrc := hx.source s
  cases ho with
  | bad hc' => omega
  | cached _ st k hst hk =>
    have hk' := (hx.edge _ _ _ hst hsrc c k).1 hk
    have : visit ts (sourceText ts s) c = ts := if_pos (List.mem_of_getElem? hk')
    rw [this]
    exact ⟨hx, k, rfl, hk'⟩
  | new _ st hst hk =>
    have hmem : sourceText ts s ++ [c] ∉ ts := by
      intro hm
      obtain ⟨k, hk'⟩ := List.mem_iff_getElem?.1 hm
      rw [(hx.edge _ _ _ hst hsrc c k).2 hk'] at hk
      cases hk
    have hv : visit ts (sourceText ts s) c = ts ++ [sourceText ts s ++ [c]] := if_neg hmem
    rw [hv] at hroom ⊢
    rw [List.length_append, List.length_singleton] at hroom
    have hr : h.states.length < h.max := by rw [hx.len]; omega
    have hvr := victim_room hr
    have ht := nextAll_touches env.toLMOps st c 0 h.models
    have hi' := hi.setModels ht.length_eq.symm
    have hfr := bayesed_frame env (createdFrom env h (Hub.source h s) st c) (victim h)
    refine ⟨hfr.indexed ?_, victim h, rfl, ?_⟩
    · have hkept : ∀ (i : Nat) (ist : HubState A.C),
          kept env { h with models := (nextAll env.toLMOps st c 0 h.models).2 } i ist = ist := by
        intro i ist
        unfold kept
        rw [if_neg]
        rintro ⟨_, hw⟩
        have : h.max ≤ h.states.length := hw.1
        omega
      have hlenc : (createdFrom env h (Hub.source h s) st c).states.length = h.states.length + 1 := by
        unfold createdFrom
        rw [created_length]
        exact if_pos hr
      have hghost : (createdFrom env h (Hub.source h s) st c).selfRecycled = false := by
        have := (NextOut.keep hf hi (.new hc st hst hk) hr).2.2.1
        rw [hfr.ghost] at this
        exact this.trans hx.fresh
      refine ⟨by rw [hlenc, hx.len, List.length_append, List.length_singleton], ?_, ?_, ?_, ?_, hghost⟩
      · rw [List.nodup_append]
        exact ⟨hx.nodup, by simp, fun a ha b hb => by rw [List.mem_singleton.1 hb]; rintro rfl; exact hmem ha⟩
      · exact prefix_get (List.prefix_append _ _) hx.root
      · intro t d htd
        rcases List.mem_append.1 htd with h1 | h1
        · exact List.mem_append_left _ (hx.closed t d h1)
        · have := List.append_inj_left' (List.mem_singleton.1 h1) rfl
          rw [this]
          exact List.mem_append_left _ (List.mem_of_getElem? hsrc)
      · intro i ist t hist hti d k
        by_cases hlt : i < ts.length
        · have hiv : i ≠ victim { h with models := (nextAll env.toLMOps st c 0 h.models).2 } := by
            show i ≠ victim h
            have := hx.len; omega
          obtain ⟨ist0, hist0⟩ := exists_getElem?_of_lt (l := h.states) (i := i) (by rw [hx.len]; exact hlt)
          obtain ⟨st', e1, _, _, _, _, _, _, e8⟩ := created_other (env := env)
            (ms := (nextAll env.toLMOps st c 0 h.models).1) hf hi' hst hk hiv hist0
          have e1' : (createdFrom env h (Hub.source h s) st c).states[i]? = some st' := e1
          rw [hist] at e1'; cases e1'
          rw [hkept] at e8
          rw [List.getElem?_append_left hlt] at hti
          have hold := hx.edge i ist0 t hist0 hti d
          by_cases his : i = Hub.source h s
          · rw [if_pos his] at e8
            have e8' : ist.nexts = ist0.nexts ++ [(c, victim h)] := e8
            subst his
            rw [hst] at hist0; cases hist0
            have htt : t = sourceText ts s := by rw [hsrc] at hti; exact (Option.some.inj hti).symm
            subst htt
            by_cases hdc : d = c
            · subst hdc
              rw [e8', lookup_append_new hk, hvr, hx.len]
              constructor
              · intro e
                have : ts.length = k := Option.some.inj e
                rw [← this]; simp
              · intro e
                rcases Nat.lt_trichotomy k ts.length with hlt' | heq | hgt
                · rw [List.getElem?_append_left hlt'] at e
                  exact absurd (List.mem_of_getElem? e) hmem
                · rw [heq]
                · rw [List.getElem?_eq_none (by simp; omega)] at e; cases e
            · have hlook : HubState.lookup ist.nexts d = HubState.lookup st.nexts d := by
                rw [e8']
                exact lookup_append_ne hdc st.nexts
              rw [hlook, hold k]
              constructor
              · intro e; exact prefix_get (List.prefix_append _ _) e
              · intro e
                rcases Nat.lt_or_ge k ts.length with hlt' | hge
                · rwa [List.getElem?_append_left hlt'] at e
                · rw [List.getElem?_append_right hge] at e
                  have := List.mem_singleton.1 (List.mem_of_getElem? e)
                  have := List.append_inj_right' this rfl
                  simp at this; exact absurd this hdc
          · rw [if_neg his, List.append_nil] at e8
            have e8' : ist.nexts = ist0.nexts := e8
            rw [e8', hold k]
            constructor
            · intro e; exact prefix_get (List.prefix_append _ _) e
            · intro e
              rcases Nat.lt_or_ge k ts.length with hlt' | hge
              · rwa [List.getElem?_append_left hlt'] at e
              · rw [List.getElem?_append_right hge] at e
                have := List.mem_singleton.1 (List.mem_of_getElem? e)
                have := List.append_inj_left' this rfl
                subst this
                exact absurd (nodup_get hx.nodup hti hsrc) his
        · have hil : i = ts.length := by
            have := lt_of_getElem?_eq_some hti
            simp at this; omega
          have hiv : i = victim { h with models := (nextAll env.toLMOps st c 0 h.models).2 } := by
            show i = victim h
            rw [hvr, hx.len]; exact hil
          subst hiv
          have hnx : ist.nexts = [] := by
            obtain ⟨st', e1, _, _, _, _, _, _, e8⟩ := created_new (env := env)
              (ms := (nextAll env.toLMOps st c 0 h.models).1) hf hi' hst hk
            have hps : victim { h with models := (nextAll env.toLMOps st c 0 h.models).2 } ≠ Hub.source h s := by
              show victim h ≠ Hub.source h s
              have := lt_of_getElem?_eq_some hst
              omega
            rw [if_neg hps] at e8
            have e1' := e1.symm.trans hist
            cases e1'
            exact e8
          have hlook : HubState.lookup ist.nexts d = none := by rw [hnx]; rfl
          rw [hlook]
          have htt : t = sourceText ts s ++ [c] := by
            rw [hil, List.getElem?_append_right (Nat.le_refl _)] at hti
            exact (List.mem_singleton.1 (List.mem_of_getElem? hti))
          refine Iff.intro (fun e => by cases e) fun e => ?_
          exfalso
          rcases List.mem_append.1 (List.mem_of_getElem? e) with h1 | h1
          · exact hmem (htt ▸ hx.closed t d h1)
          · have := congrArg List.length (List.mem_singleton.1 h1)
            rw [htt] at this
            simp at this
    · rw [hvr, hx.len]; simp

end Mozolm.Hub
