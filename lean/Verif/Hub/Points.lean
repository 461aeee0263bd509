import Verif.Hub.Guard
import Verif.Hub.Static
import Verif.Hub.Path

/-!
# Hub: correcting the component states along a text

`pt m s p`: the state `s` of the component `m` is the right one after the text `p`.  Asking does not change that;
counting may.  After `VerifyOrCorrectModelStates` along a text, the states along it are right again.
-/

namespace Mozolm.Hub
variable {A : Arith} {σ : Type} {env : Env A σ} {live : σ → Prop} {ok : σ → Int → Prop}
  {pt : σ → Int → List Int → Prop}

/-- `pt` follows the typed characters, and asking does not change it. -/
structure LMOps.Points (ops : LMOps A σ) (live : σ → Prop) (ok : σ → Int → Prop) (pt : σ → Int → List Int → Prop) : Prop where
  closed : ops.ClosedOn live ok
  next : ∀ m s c p, live m → ok m s → pt m s p → pt (ops.next m s c).2 (ops.next m s c).1 (p ++ [c])
  keep_next : ∀ m s c x p, live m → ok m s → pt m x p → pt (ops.next m s c).2 x p
  keep_extract : ∀ m s x p, live m → ok m s → pt m x p → pt (ops.extract m s).2 x p
  keep_score : ∀ m s c x p, live m → ok m s → pt m x p → pt (ops.symScore m s c).2 x p

theorem LMOps.Points.touch {ops : LMOps A σ} (hp : ops.Points live ok pt) {a b : σ} (h : Touch (ops.guard live ok) a b)
    {x : Int} {p : List Int} (ha : pt a x p) : pt b x p := by
  classical
  induction h with
  | refl => exact ha
  | next s c _ ih =>
    simp only [LMOps.guard]; split
    · next hk => exact hp.keep_next _ _ _ _ _ hk.1 hk.2 ih
    · exact ih
  | extract s _ ih =>
    simp only [LMOps.guard]; split
    · next hk => exact hp.keep_extract _ _ _ _ hk.1 hk.2 ih
    · exact ih
  | score s c _ ih =>
    simp only [LMOps.guard]; split
    · next hk => exact hp.keep_score _ _ _ _ _ hk.1 hk.2 ih
    · exact ih

/-- One step of the verification: the table afterwards. -/
theorem verifyLoop_cons {h : Hub A σ} (hi : Inv h) (hl : Linked h) (hg : h.selfRecycled = false) {s k : Nat}
    {st : HubState A.C} (hst : h.states[s]? = some st) {c : Int} (hk : HubState.lookup st.nexts c = some k) (cs : List Int) :
    ∃ kst : HubState A.C, h.states[k]? = some kst ∧ k ≠ s ∧ h.turnsLeft s < h.turnsLeft k ∧
      verifyLoop env h s (c :: cs) = verifyLoop env (verified env h st c k kst) k cs ∧
      Good env h (verified env h st c k kst) := by
  obtain ⟨_, _, hold, kst, hkst, hsym⟩ := (hi.st _ st hst).edges c k (lookup_mem hk)
  obtain ⟨hks, kst', hk', hprev⟩ := hl hg s st hst c k (lookup_mem hk)
  rw [hkst] at hk'; cases hk'
  have hlen : (nextAll env.toLMOps st c 0 h.models).1.length = kst.modelStates.length := by
    rw [nextAll_length, (hi.st _ kst hkst).ms]
  have hd : (nextAll env.toLMOps st c 0 h.models).1 ++
      kst.modelStates.drop (nextAll env.toLMOps st c 0 h.models).1.length = (nextAll env.toLMOps st c 0 h.models).1 := by
    rw [hlen, List.drop_length]; simp
  have hsk : h.turnsLeft s < h.turnsLeft k := by
    have := lt_of_getElem?_eq_some hkst
    have := lt_of_getElem?_eq_some hst
    have := hi.le
    have := hi.last_lt
    unfold Older at hold
    unfold Hub.turnsLeft
    split <;> split <;> omega
  refine ⟨kst, hkst, hks, hsk, ?_, verified_inv (env := env) hi hkst,
    ⟨rfl, rfl, rfl, id, by simp [verified], (nextAll_touches env.toLMOps st c 0 h.models).toU⟩,
    fun P Q pr x => pr.verify h s k st kst c hi x hst hk hkst hprev hsym⟩
  simp only [verifyLoop, hst, hk, hkst, HubState.verifyOrCorrect]
  rw [if_neg (by simp [hprev, hsym]), if_pos (by omega)]
  simp only [ok_bind, if_true]
  rw [hd]
  rfl

/-- The verification along a cached path succeeds; afterwards the states along it are right, for component `j`,
if the first is. -/
theorem verifyLoop_points (hf : env.Fair) (hp : env.toLMOps.Points live ok pt) (j : Nat) {cs : List Int} :
    ∀ {h : Hub A σ} {s t : Nat} {st : HubState A.C} {m : σ} {p : List Int}, Own live ok h → Linked h →
    h.selfRecycled = false → h.states[s]? = some st → IsPath h s cs t → h.models[j]? = some m → pt m (st.modelState j) p →
    ∃ (h' : Hub A σ) (m' : σ), verifyLoop (env.guard live ok) h s cs = .ok (true, h') ∧ Good (env.guard live ok) h h' ∧
      (∀ i, i < h.states.length → h.turnsLeft i ≤ h.turnsLeft s → h'.states[i]? = h.states[i]?) ∧
      h'.models[j]? = some m' ∧ Touch (env.guard live ok).toLMOps m m' ∧ IsPath h' s cs t ∧
      ∀ pre post, cs = pre ++ post → ∃ (k : Nat) (kst : HubState A.C), IsPath h' s pre k ∧ h'.states[k]? = some kst ∧
        pt m' (kst.modelState j) (p ++ pre) := by
  induction cs with
  | nil =>
    intro h s t st m p ho hl hg hst hpath hm hpt
    refine ⟨h, m, rfl, Good.refl ho.inv, fun _ _ _ => rfl, hm, .refl _, hpath, fun pre post e => ?_⟩
    obtain ⟨rfl, rfl⟩ := List.append_eq_nil_iff.1 e.symm
    exact ⟨s, st, rfl, hst, by simpa using hpt⟩
  | cons c cs ih =>
    intro h s t st m p ho hl hg hst hpath hm hpt
    obtain ⟨st', k, e1, e2, e3⟩ := hpath
    rw [hst] at e1; cases e1
    obtain ⟨kst, hkst, hks, hsk, hver, hgood⟩ := verifyLoop_cons (env := env.guard live ok) ho.inv hl hg hst e2 cs
    have htouch := nextAll_touches (env.guard live ok).toLMOps st c 0 h.models
    obtain ⟨m1, hm1, ht1⟩ := Pointwise.get htouch hm
    have ho1 := ho.good hf hp.closed hgood
    have hl1 := hgood.pres _ _ (linked_preserved (hf.guard (live := live) (ok := ok))) hl
    have hk1 : (verified (env.guard live ok) h st c k kst).states[k]? =
        some { kst with modelStates := (nextAll (env.guard live ok).toLMOps st c 0 h.models).1 } := by
      simp [verified, lt_of_getElem?_eq_some hkst]
    have hnx : ∀ (i : Nat) (ist : HubState A.C), h.states[i]? = some ist → ∃ ist1 : HubState A.C,
        (verified (env.guard live ok) h st c k kst).states[i]? = some ist1 ∧ ist1.nexts = ist.nexts := by
      intro i ist hist
      simp only [verified, List.getElem?_set]
      by_cases e : k = i
      · subst e
        rw [hkst] at hist; cases hist
        rw [if_pos rfl, if_pos (lt_of_getElem?_eq_some hkst)]
        exact ⟨_, rfl, rfl⟩
      · rw [if_neg e]; exact ⟨ist, hist, rfl⟩
    have hpa : ∀ (a : Nat) (ds : List Int) (b : Nat), IsPath h a ds b →
        IsPath (verified (env.guard live ok) h st c k kst) a ds b := by
      intro a ds
      induction ds generalizing a with
      | nil => intro b hb; exact hb
      | cons d ds ihd =>
        intro b ⟨ast, q, q1, q2, q3⟩
        obtain ⟨ast1, q4, q5⟩ := hnx a ast q1
        exact ⟨ast1, q, q4, by rw [q5]; exact q2, ihd _ _ q3⟩
    have hat := ho.at hst j m hm
    rw [Nat.zero_add] at hat
    have hgd : (env.guard live ok).toLMOps.next m (st.modelState j) c = env.next m (st.modelState j) c := by
      simp only [Env.guard, LMOps.guard]; rw [if_pos hat]
    have hm1' : m1 = (env.next m (st.modelState j) c).2 := by
      obtain ⟨m0, f1, f2, f3⟩ := nextAll_get (env.guard live ok).toLMOps st c 0 h.models (j := j) (m' := m1) hm1
      rw [hm] at f1; cases f1
      rw [f2, Nat.zero_add, hgd]
    have hpt1 : pt m1 (HubState.modelState { kst with modelStates := (nextAll (env.guard live ok).toLMOps st c 0 h.models).1 } j)
        (p ++ [c]) := by
      have hn := nextAll_fst (env.guard live ok).toLMOps st c 0 h.models hm
      rw [Nat.zero_add, hgd] at hn
      simp only [HubState.modelState, hn, hm1']
      exact hp.next _ _ _ _ hat.1 hat.2 hpt
    obtain ⟨h', m', f1, f2, f3, f4, f5, f6, f7⟩ := ih ho1 hl1 hg hk1 (hpa _ _ _ e3) hm1 hpt1
    have hsame : ∀ i, i < h.states.length → h.turnsLeft i ≤ h.turnsLeft s → h'.states[i]? = h.states[i]? := by
      intro i hlt his
      have e4 : ∀ q, (verified (env.guard live ok) h st c k kst).turnsLeft q = h.turnsLeft q := fun _ => rfl
      rw [f3 i (by simpa [verified] using hlt) (by rw [e4, e4]; omega)]
      simp only [verified, List.getElem?_set]
      rw [if_neg (by rintro rfl; omega)]
    have hst' : h'.states[s]? = some st := by
      rw [hsame s (lt_of_getElem?_eq_some hst) (Nat.le_refl _)]; exact hst
    refine ⟨h', m', hver.trans f1, hgood.trans f2, hsame, f4, ht1.trans f5, ⟨st, k, hst', e2, f6⟩, fun pre post e => ?_⟩
    cases pre with
    | nil => exact ⟨s, st, rfl, hst', by rw [List.append_nil]; exact hp.touch (ht1.trans f5) hpt⟩
    | cons d pre =>
      simp only [List.cons_append, List.cons.injEq] at e
      obtain ⟨rfl, e⟩ := e
      obtain ⟨q, qst, g1, g2, g3⟩ := f7 pre post e
      refine ⟨q, qst, ⟨st, k, hst', e2, g1⟩, g2, ?_⟩
      rw [List.append_assoc] at g3
      exact g3

end Mozolm.Hub
