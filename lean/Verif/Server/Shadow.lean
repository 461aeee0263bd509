import Verif.Hub.Shadow
import Verif.Hub.Guard
import Verif.Server.Directory

/-! # A server and one of its components behind a server of its own -/

namespace Mozolm.Hub
variable {A : Arith} {σ : Type} {env : Env A σ} {rel : σ → σ → Prop} {like : σ → σ → Int → Int → Prop} {n j : Nat} {h g : Hub A σ}

theorem Shadow.contextState (hp : env.toLMOps.Mates rel like) (hs : Shadow rel like n j h g) (cs : List Int) (s : Int) :
    Fwd (fun a b => a.1 = b.1 ∧ Shadow rel like n j a.2 b.2) (contextState env h cs s) (Hub.contextState env g cs s) :=
  Shadow.context hp cs _ hs

theorem Shadow.extract (hp : env.toLMOps.Mates rel like) (hs : Shadow rel like n j h g) (s : Int) :
    Fwd (fun a b => Shadow rel like n j a.2 b.2) (extractLMScores env h s) (extractLMScores env g s) := by
  rintro ⟨y, h1⟩ he
  have h2 := hs.asked hp s he
  obtain ⟨k1, k2⟩ := h2.says hp s
  cases hv : h1.valid s with
  | false => exact ⟨_, k1 hv, h2⟩
  | true =>
    have : s.toNat < h1.states.length := by
      simp only [Hub.valid, Bool.and_eq_true, decide_eq_true_eq] at hv; omega
    obtain ⟨st, hst⟩ := exists_getElem?_of_lt this
    obtain ⟨m, g1, _, e1, e2⟩ := k2 st hv hst
    exact ⟨_, e1, e2⟩

/-- a component refuses to answer -/
theorem extractLoop_some_each {st : HubState A.C} : ∀ (ws : List A.C) (ms : List σ) (i : Nat) (acc : List (Str × A.C)) (norm : A.D) r ms',
    extractLoop env st i ws ms acc norm = .ok (some r, ms') → ∀ (j : Nat) (m : σ), j < ws.length → ms[j]? = some m →
      (env.extract m (st.modelState (i + j))).1 ≠ none
  | [], ms, i, acc, norm, r, ms', h => by intro j m hj; simp at hj
  | _ :: _, [], i, acc, norm, r, ms', h => by simp [extractLoop] at h
  | w :: ws, m0 :: ms, i, acc, norm, r, ms', h => by
    simp only [extractLoop] at h
    rcases he : env.extract m0 (st.modelState i) with ⟨y, m1⟩
    rw [he] at h
    cases y with
    | none => simp at h
    | some y =>
      simp only at h
      obtain ⟨mr, e1, e2⟩ := bind_ok.1 h
      obtain ⟨⟨r2, ms2⟩, e3, e4⟩ := bind_ok.1 e2
      simp only [Except.ok.injEq, Prod.mk.injEq] at e4
      obtain ⟨rfl, rfl⟩ := e4
      intro j m hj hm
      cases j with
      | zero => cases hm; simp [he]
      | succ j =>
        have := extractLoop_some_each ws ms (i + 1) _ _ _ _ e3 j m (by simpa using hj) hm
        rw [Nat.add_assoc, Nat.add_comm 1 j] at this
        exact this

/-- what a component refuses, the mixture refuses -/
theorem Shadow.refuses (hp : env.toLMOps.Mates rel like) (hs : Shadow rel like n j h g) {s : Int} {g' h' : Hub A σ} {y : Option (LMScores A.D)}
    (hg : extractLMScores env g s = .ok (none, g')) (hh : extractLMScores env h s = .ok (y, h')) : y = none := by
  have hsays := hs.says hp s
  unfold extractLMScores at hh
  split at hh
  · cases hh; rfl
  · next hv =>
    have hv : h.valid s = true := by simpa using hv
    split at hh
    · cases hh
    · next st hst =>
      obtain ⟨m, g1, hm, e1, _⟩ := hsays.2 st hv hst
      rw [hg] at e1
      have e1 : (env.extract m (st.modelState j)).1 = none := by
        simp only [Except.ok.injEq, Prod.mk.injEq] at e1; exact e1.1.symm
      obtain ⟨_, _, hs'⟩ := hs
      have hj := hs'.weighed
      split at hh
      · next hw =>
        have hj0 : j = 0 := by omega
        subst hj0
        split at hh
        · cases hh
        · next m0 ms hms =>
          rw [hms] at hm
          cases hm
          cases hh
          exact e1
      · obtain ⟨ws, e2, e3⟩ := bind_ok.1 hh
        obtain ⟨⟨r, ms⟩, e4, e5⟩ := bind_ok.1 e3
        cases r with
        | none => cases e5; rfl
        | some r =>
          have hwl : ws.length = h.weights.length := by
            rw [getMixtureWeights] at e2
            split at e2
            · cases e2; rfl
            · split at e2
              · cases e2
              · unfold bayesianWeights at e2
                split at e2
                · cases e2
                  rw [normalizeWeights_length, List.length_zipWith]
                  omega
                · cases e2
          have := extractLoop_some_each _ _ _ _ _ _ _ e4 j m (by omega) hm
          rw [Nat.zero_add] at this
          exact absurd e1 this

end Mozolm.Hub

namespace Mozolm.Server
open Hub
variable {A : Arith} {σ : Type} {env : Env A σ} {rel : σ → σ → Prop} {like : σ → σ → Int → Int → Prop} {live : σ → Prop} {ok : σ → Int → Prop}
  {n j : Nat} {h g : Hub A σ}

/-- there is room for what a request visits, or no history to keep -/
def Roomy (h : Hub A σ) (r : Request) : Prop := h.hlen = 0 ∨ ∃ ts, Indexed h ts ∧ (visited ts r).length ≤ h.max

/-- the two steps of an update -/
theorem shadow_count (hp : env.toLMOps.Mates rel like) (hf : env.Fair) (hc : env.toLMOps.ClosedOn live ok)
    (hu : ∀ m s cs c, live m → ok m s → (env.update m s cs c).1 = true) (ho : Own live ok h) (hs : Shadow rel like n j h g) {x c : Int} {cs : List Int}
    (hcs : ∀ c ∈ cs, 0 ≤ c) (hroom : Roomy h (.updateLMScores x cs c)) {w : Int × Hub A σ} (hw : walk env h (toInt32 x) cs = .ok w) :
    ∃ w', walk env g (toInt32 x) cs = .ok w' ∧ w'.1 = w.1 ∧
      Fwd (fun a b => a.1 = b.1 ∧ Shadow rel like n j a.2 b.2) (updateLMCounts env w.2 (toInt32 x) cs c) (updateLMCounts env w'.2 (toInt32 x) cs c) := by
  obtain ⟨w', e1, e2, hs1⟩ := hs.walk hp cs (toInt32 x) w hw
  refine ⟨w', e1, e2.symm, ?_⟩
  rw [walk_context hf ho.inv hcs] at hw
  obtain ⟨w1, h1⟩ := w
  have ho1 : Own live ok h1 := by
    rw [ho.contextLoop hf hc] at hw
    obtain ⟨_, _, e3, g1, _⟩ := contextLoop_ok hf.guard ho.inv (toInt32 x) cs
    rw [hw] at e3; cases e3
    exact ho.good hf hc g1
  have hlen1 : h1.hlen = h.hlen := by
    obtain ⟨_, _, e3, g1, _⟩ := contextLoop_ok hf ho.inv (toInt32 x) cs
    rw [hw] at e3; cases e3
    exact g1.const.hlen
  refine hs1.update hp hf ho1.inv (toInt32 x) cs hcs c ?_ ?_
  · intro ha hb ea eb st hst b ms hup
    obtain ⟨_, ea', ga⟩ := ensureStates_ok (hf.guard (live := live) (ok := ok)) ho1.inv (toInt32 x) cs
    rw [ho1.ensureStates hf hc] at ea
    rw [ea] at ea'; cases ea'
    have hoa := ho1.good hf hc ga
    have hob : Own live ok hb := by
      split at eb
      · rw [hoa.historyLoop hf hc] at eb
        exact hoa.good hf hc (historyLoop_good hf.guard ga.inv eb)
      · cases eb; exact hoa
    have upd : ∀ (i : Nat) (ws : List A.C) (ms : List σ) (b : Bool) (ms' : List σ),
        (∀ (j : Nat) (m : σ), ms[j]? = some m → live m ∧ ok m (st.modelState (i + j))) →
        updateLoop env st cs c i ws ms = .ok (b, ms') → b = true := by
      intro i ws
      induction ws generalizing i with
      | nil => intro ms b ms' _ h; simp only [updateLoop, Except.ok.injEq, Prod.mk.injEq] at h; exact h.1.symm
      | cons w ws ih =>
        intro ms b ms' hm h
        cases ms with
        | nil => simp [updateLoop] at h
        | cons m ms =>
          simp only [updateLoop] at h
          split at h
          · next m' e =>
            have := hu m (st.modelState i) cs c (hm 0 m rfl).1 (hm 0 m rfl).2; rw [e] at this; cases this
          · obtain ⟨⟨b2, ms2⟩, e2, e3⟩ := bind_ok.1 h
            simp only [Except.ok.injEq, Prod.mk.injEq] at e3
            obtain ⟨rfl, _⟩ := e3
            refine ih _ _ _ _ (fun j mj hj => ?_) e2
            have := hm (j + 1) mj (by simpa using hj)
            rw [show i + 1 + j = i + (j + 1) by omega]; exact this
    exact upd 0 _ _ _ _ (hob.at hst) hup
  · intro ha ea
    rcases hroom with h0 | ⟨ts, hx, hr⟩
    · left
      obtain ⟨_, ea', ga⟩ := ensureStates_ok hf ho1.inv (toInt32 x) cs
      rw [ea] at ea'; cases ea'
      rw [ga.const.hlen, hlen1, h0]
    · right
      intro k hk hlt
      have hpre := visits_prefix cs (visits ts (sourceText ts (toInt32 x)) cs) (sourceText (visits ts (sourceText ts (toInt32 x)) cs) (toInt32 x))
      have hr' : (visits (visits ts (sourceText ts (toInt32 x)) cs) (sourceText (visits ts (sourceText ts (toInt32 x)) cs) (toInt32 x)) cs).length ≤ h.max := hr
      obtain ⟨a1, a2, a3, _⟩ := Indexed.context hf hcs hx ho.inv hw (Nat.le_trans hpre.length_le hr')
      rw [walk_ensure, walk_context hf ho1.inv hcs] at ea
      obtain ⟨⟨r, hb⟩, e3, e4⟩ := bind_ok.1 ea
      cases e4
      obtain ⟨b1, _⟩ := Indexed.context hf hcs a1 ho1.inv e3 (by rw [a3]; exact hr')
      have hpre0 := visits_prefix cs ts (sourceText ts (toInt32 x))
      have hin : toInt32 x < (visits ts (sourceText ts (toInt32 x)) cs).length := by
        refine Classical.byContradiction fun hn => ?_
        have hle := hpre0.length_le
        have z1 : sourceText (visits ts (sourceText ts (toInt32 x)) cs) (toInt32 x) = [] := sourceText_out (by omega)
        have z2 : sourceText ts (toInt32 x) = [] := sourceText_out (by omega)
        have hl := b1.len
        rw [z1, z2, visits_again cs List.prefix_rfl] at hl
        rw [z2] at hn
        simp only at hlt
        omega
      have hsrc := a1.source (toInt32 x)
      have hv := source_valid (h := h1) (s := toInt32 x) (by omega) (by rw [a1.len]; exact hin)
      have hm := visits_mem cs (a1.source_mem (toInt32 x))
      obtain ⟨t, ht⟩ := List.mem_iff_getElem?.1 hm
      have hk' : Hub.source h1 (toInt32 x) = k := by omega
      rw [hk'] at hsrc
      exact ⟨t, b1.path cs (prefix_get hpre hsrc) ht⟩

/-- One request. -/
theorem shadow_serve (hp : env.toLMOps.Mates rel like) (hf : env.Fair) (hc : env.toLMOps.ClosedOn live ok)
    (hu : ∀ m s cs c, live m → ok m s → (env.update m s cs c).1 = true) (ho : Own live ok h) (hs : Shadow rel like n j h g) {r : Request}
    (hcs : ∀ c ∈ r.text, 0 ≤ c) (hroom : Roomy h r) : Fwd (Shadow rel like n j) (serve env h r) (serve env g r) := by
  cases r with
  | getNextState ctx s =>
    intro h' he
    obtain ⟨⟨y, h2⟩, e1, e2⟩ := bind_ok.1 he
    cases e2
    obtain ⟨⟨k, h3⟩, e3, e4⟩ := bind_ok.1 e1
    cases e4
    obtain ⟨⟨k', g3⟩, f3, f4, f5⟩ := hs.contextState hp ctx (toInt32 s) _ e3
    exact ⟨g3, bind_ok.2 ⟨_, bind_ok.2 ⟨_, f3, rfl⟩, rfl⟩, f5⟩
  | getLMScores ctx s =>
    intro h' he
    obtain ⟨⟨y, h2⟩, e1, e2⟩ := bind_ok.1 he
    cases e2
    obtain ⟨⟨k, h3⟩, e3, e4⟩ := bind_ok.1 e1
    obtain ⟨⟨z, h4⟩, e5, e6⟩ := bind_ok.1 e4
    have : h2 = h4 := by cases z <;> (cases e6; rfl)
    subst this
    obtain ⟨⟨k', g3⟩, f3, f4, f5⟩ := hs.contextState hp ctx (toInt32 s) _ e3
    simp only at f4 f5 e5
    subst f4
    obtain ⟨⟨z', g4⟩, f6, f7⟩ := f5.extract hp k _ e5
    refine ⟨g4, ?_, f7⟩
    simp only [serve, getLMScores, f3, ok_bind, f6]
    cases z' <;> rfl
  | updateLMScores s cs c =>
    intro h' he
    obtain ⟨⟨y, h2⟩, e1, e2⟩ := bind_ok.1 he
    cases e2
    obtain ⟨⟨w, ha⟩, e3, e4⟩ := bind_ok.1 e1
    obtain ⟨⟨u, hb⟩, e5, e6⟩ := bind_ok.1 e4
    have hcs' : ∀ c ∈ cs, 0 ≤ c := hcs
    obtain ⟨⟨w', ga⟩, f1, f2, f3⟩ := shadow_count hp hf hc hu ho hs hcs' hroom e3
    obtain ⟨⟨u', gb⟩, f4, f5, f6⟩ := f3 _ e5
    simp only at f2 f5 f6 f4
    subst f2 f5
    cases u with
    | false =>
      simp only [Bool.false_eq_true, if_false, Except.ok.injEq, Prod.mk.injEq] at e6
      refine ⟨gb, ?_, by rw [← e6.2]; exact f6⟩
      have f1' : walk env g (toInt32 s) cs = .ok (w', ga) := f1
      simp only [serve, updateLMScores, f1', ok_bind, f4]
      rfl
    | true =>
      simp only [if_true] at e6
      obtain ⟨⟨z, h4⟩, e7, e8⟩ := bind_ok.1 e6
      have : h2 = h4 := by cases z <;> (cases e8; rfl)
      subst this
      obtain ⟨⟨z', g4⟩, f8, f9⟩ := f6.extract hp _ _ e7
      refine ⟨g4, ?_, f9⟩
      have f1' : walk env g (toInt32 s) cs = .ok (w', ga) := f1
      simp only [serve, updateLMScores, f1', ok_bind, f4, if_true, f8]
      cases z' <;> rfl

end Mozolm.Server
