import Verif.Hub.Tandem
import Verif.Hub.SortBy
import Verif.Hub.Preserve

/-! # Two hubs side by side, one with rounding: mixtures -/

namespace Mozolm.Hub
open XR

variable {φ : Prop} {ε δ : ℝ} {F : Rounding φ ε δ} {σ τ : Type}
variable {ops : LMOps F.arith σ} {ops' : LMOps Arith.xr τ} {env : Env F.arith σ} {env' : Env Arith.xr τ} {R : Nat → σ → τ → Prop} {d n w : ℝ} {V N k L : Nat}

theorem pointwise_lift {α β : Type} {Q : α → β → Prop} {as : List α} {bs : List β} (h : Pointwise Q as bs) :
    ∃ l : List (α × β), l.map Prod.fst = as ∧ l.map Prod.snd = bs ∧ ∀ x ∈ l, Q x.1 x.2 := by
  induction h with
  | nil => exact ⟨[], rfl, rfl, by simp⟩
  | @cons a b as bs r _ ih =>
    obtain ⟨l, rfl, rfl, h3⟩ := ih
    refine ⟨(a, b) :: l, rfl, rfl, ?_⟩
    intro x hx
    rcases List.mem_cons.1 hx with rfl | hx
    · exact r
    · exact h3 x hx

theorem pointwise_map {α β γ : Type} {Q : α → β → Prop} {f : γ → α} {g : γ → β} : ∀ {l : List γ}, (∀ x ∈ l, Q (f x) (g x)) →
    Pointwise Q (l.map f) (l.map g)
  | [], _ => .nil
  | x :: l, h => .cons (h x (by simp)) (pointwise_map fun y hy => h y (by simp [hy]))

theorem normalizeWeights_match (F : Rounding φ ε δ) (hε : 0 ≤ ε) {e : ℝ} {ws ws' : List XR} (h : Pointwise (CostMatch φ e) ws ws') :
    Pointwise (CostMatch φ (2 * e + ws.length * ε)) (normalizeWeights F.arith ws) (normalizeWeights Arith.xr ws') := by
  obtain ⟨l, rfl, rfl, h3⟩ := pointwise_lift h
  cases l with
  | nil => exact .nil
  | cons x l =>
    have e1 : normalizeWeights F.arith ((x :: l).map Prod.fst) =
        (x :: l).map fun y => F.over y.1 (Scores.negLogSumFrom F.arith x.1 (l.map Prod.fst)) := by
      simp only [normalizeWeights, List.map_cons, List.map_map]; rfl
    have e2 : normalizeWeights Arith.xr ((x :: l).map Prod.snd) =
        (x :: l).map fun y => XR.sub y.2 (Scores.negLogSumFrom Arith.xr x.2 (l.map Prod.snd)) := by
      simp only [normalizeWeights, List.map_cons, List.map_map]; rfl
    rw [e1, e2, List.length_map]
    exact pointwise_map fun y hy => over_total F hε h3 (.refl _) (.refl _) hy

theorem zipTimes (F : Rounding φ ε δ) {e f : ℝ} {as as' : List XR} (h : Pointwise (CostMatch φ e) as as') : ∀ {bs bs' : List XR},
    Pointwise (CostMatch φ f) bs bs' → Pointwise (CostMatch φ (e + f + ε)) (List.zipWith F.times as bs) (List.zipWith XR.add as' bs') := by
  induction h with
  | nil => intro bs bs' _; simpa using Pointwise.nil
  | cons r _ ih =>
    intro bs bs' hb
    cases hb with
    | nil => simpa using Pointwise.nil
    | cons r' hb => exact .cons (CostMatch.times F r r') (ih hb)

variable {h : Hub F.arith σ} {h' : Hub Arith.xr τ}

theorem weights_twin (hε : 0 ≤ ε) (hd : 0 ≤ d) {K : Nat} (ht : HubTwin F R d K k L h h') (s : Int) :
    Both (fun x y => x.length ≤ K ∧ Pointwise (CostMatch φ (weightError ε d K L)) x y) (getMixtureWeights h s true)
      (getMixtureWeights h' s true) := by
  have hK := ht.weights.1
  have hle : K * ε ≤ weightError ε d K L := by
    have h1 : 0 ≤ (K : ℝ) * ε := by positivity
    have h2 : 0 ≤ (L : ℝ) * (d + ε) := by positivity
    unfold weightError
    linarith
  unfold getMixtureWeights
  rw [ht.valid s]
  have hh := ht.hlen
  by_cases c : (!true || h'.hlen == 0 || !h'.valid s) = true
  · rw [if_pos c, if_pos (by rw [hh]; exact c)]
    exact .ok ⟨hK.le, ht.weights.2.mono fun _ _ h => h.le hle⟩
  · rw [if_neg c, if_neg (by rw [hh]; exact c)]
    have h1 := Ppm.Pointwise.opt ht.states s.toNat
    generalize h.states[s.toNat]? = x at h1
    generalize h'.states[s.toNat]? = y at h1
    cases h1 with
    | none => exact .error _
    | @some st st' h1 =>
      simp only [bayesianWeights]
      have l1 := ht.weights.2.length_eq
      have l2 := h1.sums.length_eq
      by_cases c2 : h'.weights.length ≤ st'.histSum.length
      · rw [if_pos (by omega), if_pos c2]
        have hz : (List.zipWith F.times h.weights st.histSum).length = K := by
          rw [List.length_zipWith]; omega
        refine .ok ⟨?_, ?_⟩
        · rw [normalizeWeights_length]
          exact hz.le
        · have := normalizeWeights_match F hε (zipTimes F ht.weights.2 h1.sums)
          rw [hz] at this
          exact this
      · rw [if_neg (by omega), if_neg c2]
        exact .error _

/-- entries of the mixture so far -/
def Entry (φ : Prop) (e : ℝ) (x y : Str × XR) : Prop := x.1 = y.1 ∧ CostMatch φ e x.2 y.2

theorem entries_le {e f : ℝ} (he : e ≤ f) {a a' : List (Str × XR)} (h : Pointwise (Entry φ e) a a') : Pointwise (Entry φ f) a a' :=
  h.mono fun _ _ h => ⟨h.1, h.2.le he⟩

theorem mixInsert_match (F : Rounding φ ε δ) (hε : 0 ≤ ε) {e : ℝ} (key : Str) {v v' : XR} (hv : CostMatch φ e v v') {a a' : List (Str × XR)}
    (h : Pointwise (Entry φ e) a a') :
    Pointwise (Entry φ (e + ε)) (mixInsert F.arith key v a) (mixInsert Arith.xr key v' a') ∧ (mixInsert F.arith key v a).length ≤ a.length + 1 := by
  induction h with
  | nil => exact ⟨.cons ⟨rfl, hv.le (by linarith)⟩ .nil, le_refl _⟩
  | @cons x y as bs r h ih =>
    obtain ⟨x1, x2⟩ := x
    obtain ⟨y1, y2⟩ := y
    obtain ⟨r1, r2⟩ := r
    simp only at r1 r2
    subst r1
    simp only [mixInsert]
    split
    · exact ⟨.cons ⟨rfl, CostMatch.nls F hv r2⟩ (entries_le (by linarith) h), by simp⟩
    · exact ⟨.cons ⟨rfl, r2.le (by linarith)⟩ ih.1, by simpa using ih.2⟩

theorem mixLoop_match (F : Rounding φ ε δ) (hε : 0 ≤ ε) {ww ww' : XR} (hw : CostMatch φ w ww ww') {ps ps' : List XR} (hp : Pointwise (NumMatch φ d) ps ps') :
    ∀ (ks : List Str) {e : ℝ} {a a' : List (Str × XR)}, d + w + 2 * ε ≤ e → Pointwise (Entry φ e) a a' →
    Both (fun x y => Pointwise (Entry φ (e + ps.length * ε)) x y ∧ x.length ≤ a.length + ps.length) (mixLoop F.arith ww ps ks a) (mixLoop Arith.xr ww' ps' ks a') := by
  induction hp with
  | nil => intro ks e a a' _ ha; exact .ok ⟨entries_le (by simp) ha, by simp⟩
  | @cons p q ps ps' r _ ih =>
    intro ks e a a' he ha
    cases ks with
    | nil => exact .error _
    | cons key ks =>
      have hv : CostMatch φ e (F.times (F.cost p) ww) (XR.add (XR.negLog q) ww') := (CostMatch.times F (r.cost F) hw).le (by linarith)
      obtain ⟨m1, m2⟩ := mixInsert_match F hε key hv ha
      simp only [mixLoop]
      refine (ih ks (e := e + ε) (by linarith) m1).mono fun x y hxy => ⟨entries_le (le_of_eq ?_) hxy.1, ?_⟩
      · rw [List.length_cons]; push_cast; ring
      · have := hxy.2
        simp only [List.length_cons]
        omega

theorem extractLoop_match (hε : 0 ≤ ε) (h0 : 0 ≤ δ) (h1 : δ < 1) (hp : env.Pair F env'.toLMOps R d n V N) (hk : k ≤ N) {st st' : HubState XR}
    (hs : StateTwin φ ε d L st st') {ws ws' : List XR} (hw : Pointwise (CostMatch φ w) ws ws') :
    ∀ (i : Nat) {ms : List σ} {ms' : List τ} {a a' : List (Str × XR)} {x x' : XR} {e g : ℝ}, Pointwise (R k) ms ms' → d + w + 2 * ε ≤ e →
    Pointwise (Entry φ e) a a' → n + w + 2 * slack δ ≤ g → NumMatch φ g x x' →
    Both (fun p q => Opts (fun u v => Pointwise (Entry φ (e + (ws.length * V : Nat) * ε)) u.1 v.1 ∧ u.1.length ≤ a.length + ws.length * V ∧
      NumMatch φ (g + ws.length * slack δ) u.2 v.2) p.1 q.1 ∧ Pointwise (R k) p.2 q.2) (extractLoop env st i ws ms a x)
      (extractLoop env' st' i ws' ms' a' x') := by
  have hsl := slack_nonneg h0 h1
  induction hw with
  | nil =>
    intro i ms ms' a a' x x' e g hm _ ha _ hx
    exact .ok ⟨.some ⟨entries_le (by simp) ha, by simp, hx.le (by simp)⟩, hm⟩
  | @cons ww ww' ws ws' r _ ih =>
    intro i ms ms' a a' x x' e g hm he ha hg hx
    cases hm with
    | nil => exact .error _
    | @cons m m' ms ms' rm hm =>
      simp only [extractLoop]
      obtain ⟨u1, u2⟩ := hp.extract k m m' (st.modelState i) rm hk
      rw [← hs.modelState i]
      rcases hX : env.extract m (st.modelState i) with ⟨b, m1⟩
      rcases hY : env'.extract m' (st.modelState i) with ⟨b', m1'⟩
      rw [hX, hY] at u1 u2
      simp only at u1 u2
      rcases u2 with ⟨rfl, rfl⟩ | ⟨s, s', rfl, rfl, hsc, hV⟩
      · exact .ok ⟨.none, .cons u1 hm⟩
      · simp only
        have hmr : Both (fun p q => NumMatch φ g p.1 q.1 ∧ Pointwise (Entry φ (e + (V : Nat) * ε)) p.2 q.2 ∧ p.2.length ≤ a.length + V)
            (mixResults F.arith s ww a) (mixResults Arith.xr s' ww' a') := by
          unfold mixResults
          rw [hsc.symbols]
          refine (mixLoop_match F hε r hsc.probs s'.symbols he ha).bind fun p q hpq => .ok ⟨?_, ?_, ?_⟩
          · exact (NumMatch.mul F h1 hsc.norm (r.prob F h1)).le (by linarith)
          · refine entries_le ?_ hpq.1
            have : (s.probs.length : ℝ) ≤ V := by exact_mod_cast hV
            nlinarith
          · have := hpq.2
            simp only
            omega
        refine hmr.bind fun p q hpq => ?_
        have hVe : 0 ≤ (V : ℝ) * ε := by positivity
        have hn : NumMatch φ (g + slack δ) (F.dadd x p.1) (XR.add x' q.1) := NumMatch.add F h1 hx hpq.1
        refine (ih (i + 1) hm (e := e + V * ε) (by linarith) hpq.2.1 (by linarith) hn).bind fun y z hyz => .ok ⟨?_, .cons u1 hyz.2⟩
        have h5 := hyz.1
        generalize y.1 = y1 at h5
        generalize z.1 = z1 at h5
        cases h5 with
        | none => exact .none
        | some h5 =>
          refine .some ⟨entries_le (le_of_eq ?_) h5.1, ?_, h5.2.2.le (le_of_eq ?_)⟩
          · rw [List.length_cons]; push_cast; ring
          · have h6 := h5.2.1
            have h7 := hpq.2.2
            rw [List.length_cons, Nat.succ_mul]
            omega
          · rw [List.length_cons]; push_cast; ring

theorem extractMixture_match (hε : 0 ≤ ε) (h1 : δ < 1) (hf : env.Fair) (hf' : env'.Fair) {e g : ℝ} {a a' : List (Str × XR)} {M : Nat}
    (ha : Pointwise (Entry φ e) a a') (hn : (a.map Prod.fst).Nodup) (hl : a.length ≤ M) {x x' : XR} (hx : NumMatch φ g x x') :
    ScoresMatch φ (2 * e + M * ε + slack δ) g (extractMixture env a x) (extractMixture env' a' x') := by
  obtain ⟨l, rfl, rfl, h3⟩ := pointwise_lift ha
  set f : (Str × XR) × (Str × XR) → Str × XR := Prod.fst
  set f' : (Str × XR) × (Str × XR) → Str × XR := Prod.snd
  obtain ⟨l1, p1, e1⟩ := perm_lift f l (hf.permV (l.map f))
  obtain ⟨l2, p2, e2⟩ := perm_lift f' l (hf'.permV (l.map f'))
  have hkey : ∀ z ∈ l, (f' z).1 = (f z).1 := fun z hz => (h3 z hz).1.symm
  have hnd : (l.map fun z => (f z).1).Nodup := by rw [List.map_map] at hn; exact hn
  set S := sortBy (fun z => (f z).1) l1 with hS
  have hSl : S.Perm l := (sortBy_perm _ _).trans p1
  have s1 : sortValues (l1.map f) = S.map f := sortValues_map f _ l1 fun _ _ => rfl
  have s2 : sortValues (l2.map f') = S.map f' := by
    rw [hS, sortBy_eq (fun z => (f z).1) (fun a ha b hb h => List.inj_on_of_nodup_map hnd ha hb h) p1 p2]
    exact sortValues_map f' _ l2 fun a ha => hkey a (p2.subset ha)
  unfold extractMixture
  simp only
  rw [← e1, ← e2]
  cases l1 with
  | nil =>
    have : l2 = [] := by
      have := (p2.trans p1.symm).length_eq
      exact List.length_eq_zero_iff.1 this
    subst this
    exact ⟨rfl, .nil, hx⟩
  | cons z l1 =>
    cases l2 with
    | nil => exact absurd (p2.trans p1.symm).length_eq (by simp)
    | cons z2 l2 =>
      rw [List.map_cons, List.map_cons] at *
      simp only
      rw [s1, s2]
      refine ⟨?_, ?_, hx⟩
      · simp only [List.map_map]
        exact List.map_congr_left fun u hu => (hkey u (hSl.subset hu)).symm
      · simp only [List.map_map]
        refine pointwise_map fun u hu => ?_
        have hu' := hSl.subset hu
        have hmem : ((f u).2, (f' u).2) ∈ l.map fun y => ((f y).2, (f' y).2) := List.mem_map.2 ⟨u, hu', rfl⟩
        have := over_total F hε (e := e) (L := l.map fun y => ((f y).2, (f' y).2)) (v := (f z).2) (v' := (f' z2).2)
          (o := l1.map fun y => (f y).2) (o' := l2.map fun y => (f' y).2) (by
            intro y hy
            obtain ⟨q, hq, rfl⟩ := List.mem_map.1 hy
            exact (h3 q hq).2) (by
            rw [List.map_map]
            exact p1.map fun y => (f y).2) (by
            rw [List.map_map]
            exact p2.map fun y => (f' y).2) hmem
        rw [List.length_map] at this
        have hM : (l.length : ℝ) ≤ M := by
          rw [List.length_map] at hl
          exact_mod_cast hl
        have h9 := (this.le (f := 2 * e + M * ε) (by nlinarith)).prob F h1
        exact h9

theorem mixInsert_nodup {A : Arith} {key : Str} {v : A.C} {acc : List (Str × A.C)} (h : (acc.map Prod.fst).Nodup) :
    ((mixInsert A key v acc).map Prod.fst).Nodup := by
  rw [mixInsert_keys]
  unfold addKey
  split
  · exact h
  · next hk => exact List.Nodup.append h (by simp) (by simpa using hk)

theorem mixLoop_nodup {A : Arith} {ww : A.C} : ∀ {ps : List A.D} {ks : List Str} {acc acc' : List (Str × A.C)}, (acc.map Prod.fst).Nodup →
    mixLoop A ww ps ks acc = .ok acc' → (acc'.map Prod.fst).Nodup
  | [], ks, acc, acc', h, e => by
    cases ks <;> (simp only [mixLoop, Except.ok.injEq] at e; rw [← e]; exact h)
  | p :: ps, [], acc, acc', h, e => by simp [mixLoop] at e
  | p :: ps, key :: ks, acc, acc', h, e => mixLoop_nodup (mixInsert_nodup h) e

theorem extractLoop_nodup {A : Arith} {σ : Type} {env : Env A σ} {st : HubState A.C} : ∀ {i : Nat} {ws : List A.C} {ms : List σ} {acc : List (Str × A.C)} {x : A.D}
    {acc' : List (Str × A.C)} {x' : A.D} {ms' : List σ}, (acc.map Prod.fst).Nodup → extractLoop env st i ws ms acc x = .ok (some (acc', x'), ms') →
    (acc'.map Prod.fst).Nodup
  | i, [], ms, acc, x, acc', x', ms', h, e => by
    simp only [extractLoop, Except.ok.injEq, Prod.mk.injEq, Option.some.injEq] at e
    rw [← e.1.1]; exact h
  | i, ww :: ws, [], acc, x, acc', x', ms', h, e => by simp [extractLoop] at e
  | i, ww :: ws, m :: ms, acc, x, acc', x', ms', h, e => by
    simp only [extractLoop] at e
    rcases hX : env.extract m (st.modelState i) with ⟨b, m1⟩
    rw [hX] at e
    cases b with
    | none => simp at e
    | some r =>
      simp only at e
      obtain ⟨mr, e1, e2⟩ := bind_ok.1 e
      obtain ⟨rest, e3, e4⟩ := bind_ok.1 e2
      unfold mixResults at e1
      obtain ⟨ac, e5, e6⟩ := bind_ok.1 e1
      simp only [Except.ok.injEq] at e6
      simp only [Except.ok.injEq, Prod.mk.injEq] at e4
      obtain ⟨r1, r2⟩ := rest
      simp only at e4
      rw [e4.1] at e3
      refine extractLoop_nodup ?_ e3
      rw [← e6]
      exact mixLoop_nodup h e5

theorem extractLMScores_twin (hε : 0 ≤ ε) (h0 : 0 ≤ δ) (h1 : δ < 1) (hd : 0 ≤ d) (hn : 0 ≤ n) (hf : env.Fair) (hf' : env'.Fair)
    (hp : env.Pair F env'.toLMOps R d n V N) (hk : k ≤ N) {K : Nat} (ht : HubTwin F R d K k L h h') (s : Int) :
    Both (fun x y => Opts (ScoresMatch φ (mixError ε δ d (weightError ε d K L) K V) (normError δ n (weightError ε d K L) K)) x.1 y.1 ∧
      HubTwin F R d K k L x.2 y.2)
      (extractLMScores env h s) (extractLMScores env' h' s) := by
  have hsl := slack_nonneg h0 h1
  have hW : 0 ≤ weightError ε d K L := by unfold weightError; positivity
  unfold extractLMScores
  rw [ht.valid s]
  split
  · exact .ok ⟨.none, ht⟩
  have h2 := Ppm.Pointwise.opt ht.states s.toNat
  generalize h.states[s.toNat]? = x at h2
  generalize h'.states[s.toNat]? = y at h2
  cases h2 with
  | none => exact .error _
  | @some st st' h2 =>
    simp only
    have hwl := ht.weights.2.length_eq
    by_cases c : h'.weights.length < 2
    · rw [if_pos (by omega), if_pos c]
      have hm := ht.models
      rcases hM : h.models with _ | ⟨m, ms⟩
      · rw [hM] at hm
        generalize h'.models = b at hm
        cases hm
        exact .error _
      · rw [hM] at hm
        generalize h'.models = b at hm
        cases hm with
        | @cons _ m' _ ms' r hm =>
          simp only
          obtain ⟨u1, u2⟩ := hp.extract k m m' (st.modelState 0) r hk
          rw [← h2.modelState 0]
          refine .ok ⟨?_, ht.setModels (.cons u1 hm)⟩
          simp only
          rcases u2 with ⟨e1, e2⟩ | ⟨q, q', e1, e2, hq, _⟩
          · rw [e1, e2]; exact .none
          · rw [e1, e2]
            refine .some (hq.le ?_ ?_)
            · unfold mixError
              have : 0 ≤ ((K * V : Nat) : ℝ) * ε := by positivity
              linarith
            · unfold normError
              have : 0 ≤ (K : ℝ) * slack δ := by positivity
              linarith
    · rw [if_neg (by omega), if_neg c]
      have hwt := weights_twin hε hd ht s
      refine hwt.bind fun ws ws' hws => ?_
      have hz0 : ValueNear φ (n + weightError ε d K L + 2 * slack δ) (F.ofInt 0) 0 := by
        have := ValueNear.ofInt F h1 (le_refl (0 : Int))
        rw [Int.cast_zero] at this
        exact this.mono (le_refl _) (by linarith)
      have hz : NumMatch φ (n + weightError ε d K L + 2 * slack δ) (F.ofInt 0) (.fin ((0 : Int) : ℝ)) :=
        .inr ⟨0, le_refl _, by simp, hz0⟩
      have hx := extractLoop_match hε h0 h1 hp hk h2 hws.2 0 ht.models (le_refl _) (.nil : Pointwise (Entry φ _) [] []) (le_refl _) hz
      have hnod : ∀ a x ms, extractLoop env st 0 ws h.models [] (F.ofInt 0) = .ok (some (a, x), ms) → (a.map Prod.fst).Nodup :=
        fun a x ms e => extractLoop_nodup (by simp) e
      have eL : extractLoop env st 0 ws h.models [] (F.arith.ofInt 0) = extractLoop env st 0 ws h.models [] (F.ofInt 0) := rfl
      have eR : extractLoop env' st' 0 ws' h'.models [] (Arith.xr.ofInt 0) = extractLoop env' st' 0 ws' h'.models [] (.fin ((0 : Int) : ℝ)) := rfl
      rw [eL, eR]
      generalize extractLoop env st 0 ws h.models [] (F.ofInt 0) = A at hx hnod
      generalize extractLoop env' st' 0 ws' h'.models [] (.fin ((0 : Int) : ℝ)) = B at hx
      cases hx with
      | error f => exact .error f
      | @ok a b hx =>
        obtain ⟨a1, a2⟩ := a
        obtain ⟨b1, b2⟩ := b
        obtain ⟨hx, hm⟩ := hx
        simp only at hx hm
        have ht2 := ht.setModels hm
        cases hx with
        | none => exact .ok ⟨.none, ht2⟩
        | @some a b hx =>
          obtain ⟨q1, q2, q3⟩ := hx
          obtain ⟨a1, a3⟩ := a
          obtain ⟨b1, b3⟩ := b
          have hnd := hnod a1 a3 a2 rfl
          simp only [List.length_nil, Nat.zero_add] at q1 q2 q3
          have hlen : ws.length * V ≤ K * V := Nat.mul_le_mul_right _ hws.1
          have hlr : (((ws.length * V : Nat) : ℝ)) ≤ ((K * V : Nat) : ℝ) := by exact_mod_cast hlen
          have hlk : (ws.length : ℝ) ≤ K := by exact_mod_cast hws.1
          refine .ok ⟨.some ?_, ht2⟩
          refine (extractMixture_match hε h1 hf hf' q1 hnd (q2.trans hlen) q3).le ?_ ?_
          · unfold mixError
            nlinarith
          · unfold normError
            nlinarith

end Mozolm.Hub
