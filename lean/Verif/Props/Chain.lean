import Verif.System.OfferedSpec
import Verif.System.Generating
import Verif.Props.Generation

/-!
# C97: the texts that the client generates, with any server
-/

namespace Mozolm.System
open Mozolm.Hub Mozolm.Server
variable {σ : Type} {env : Env Arith.xr σ} {decode : Str → List Int} {sort : List (XR × Str) → List (XR × Str)}
  {r : LMScores XR} {h : Hub Arith.xr σ}

/-- What the client makes of the reply. -/
theorem Proper.top (h : Proper r) (sort : List (XR × Str) → List (XR × Str)) :
    Scores.getTopHypotheses sort r (-1) = .ok (sort (r.probs.zip r.symbols)) := by
  obtain ⟨ps, h1, h2, h3, h4⟩ := h.distribution
  have hl : r.probs.length = r.symbols.length := by rw [h1, List.length_map, h2]
  have hne : ps ≠ [] := by rintro rfl; simp at h4
  have : 0 < r.probs.length := by rw [h1, List.length_map]; exact List.length_pos_iff.2 hne
  simp only [Scores.getTopHypotheses]
  rw [if_neg (by omega), if_neg (by omega), if_neg (by omega), if_neg (by omega)]

/-- What the client draws: always one of the symbols, each with its probability. -/
theorem Proper.draw (hs : ∀ l, (sort l).Perm l) (h : Proper r) :
    (∀ t : ℝ, ∃ sym ∈ r.symbols, picked (sort (r.probs.zip r.symbols)) (.fin t) = some sym) ∧
    ∀ (sym : Str) (p : ℝ), Gives r sym p → 0 ≤ p ∧
      MeasurableSet {t : ℝ | picked (sort (r.probs.zip r.symbols)) (.fin t) = some sym} ∧
      uniform {t : ℝ | picked (sort (r.probs.zip r.symbols)) (.fin t) = some sym} = ENNReal.ofReal p := by
  obtain ⟨qs, h1, h2, h3, h4⟩ := h.distribution
  have hnd := h.distinct
  have hperm : (sort (r.probs.zip r.symbols)).Perm (r.probs.zip r.symbols) := hs _
  generalize sort (r.probs.zip r.symbols) = scores at hperm ⊢
  have hl : r.probs.length = r.symbols.length := by rw [h1, List.length_map, h2]
  have hfst : (scores.map Prod.fst).Perm (qs.map XR.fin) := by
    have := hperm.map Prod.fst
    rw [List.map_fst_zip (by omega)] at this
    rwa [h1] at this
  have hsndp : (scores.map Prod.snd).Perm r.symbols := by
    have := hperm.map Prod.snd
    rwa [List.map_snd_zip (by omega)] at this
  have hsnd : (scores.map Prod.snd).Nodup := hsndp.nodup_iff.2 hnd
  obtain ⟨ps, hps⟩ : ∃ ps : List ℝ, scores.map Prod.fst = ps.map XR.fin := by
    refine ⟨scores.map fun x => number x.1, ?_⟩
    rw [List.map_map]
    refine List.map_congr_left fun x hx => ?_
    obtain ⟨z, _, hz⟩ := List.mem_map.1 (hfst.mem_iff.1 (List.mem_map_of_mem hx))
    simp [Function.comp, ← hz, number]
  have hpsp : ps.Perm qs := by
    have : (ps.map XR.fin).Perm (qs.map XR.fin) := by rw [← hps]; exact hfst
    have h' := this.map number
    rw [List.map_map, List.map_map, show number ∘ XR.fin = id from rfl] at h'
    simpa using h'
  have hpos : ∀ q ∈ ps, 0 ≤ q := fun q hq => h3 q (hpsp.mem_iff.1 hq)
  have hone : ps.sum = 1 := by rw [hpsp.sum_eq, h4]
  have hplen : ps.length = scores.length := by simpa using (congrArg List.length hps).symm
  have hne : scores.map Prod.fst ≠ [] := by
    intro e
    rw [e] at hps
    have : ps = [] := by simpa using hps.symm
    rw [this] at hone
    simp at hone
  have hall : ∀ t : ℝ, ∃ x ∈ scores, picked scores (.fin t) = some x.2 := by
    intro t
    have hlt := (Client.C41_first_to_reach (A := Arith.xr) (scores.map Prod.fst) (.fin t) hne).1
    rw [List.length_map] at hlt
    obtain ⟨x, hx⟩ := exists_getElem?_of_lt hlt
    refine ⟨x, List.mem_of_getElem? hx, ?_⟩
    unfold picked
    rw [hx]; rfl
  refine ⟨fun t => ?_, fun sym p hg => ?_⟩
  · obtain ⟨x, hx, e⟩ := hall t
    exact ⟨x.2, hsndp.mem_iff.1 (List.mem_map_of_mem hx), e⟩
  · rcases hg with hm | ⟨hm, rfl⟩
    · have hm : (XR.fin p, sym) ∈ scores := hperm.mem_iff.2 hm
      obtain ⟨i, hi⟩ := List.mem_iff_getElem?.1 hm
      have hil := lt_of_getElem?_eq_some hi
      have hset : {t : ℝ | picked scores (.fin t) = some sym} = {t : ℝ | Client.randomPosition Arith.xr (ps.map XR.fin) (.fin t) = i} := by
        ext t
        simp only [Set.mem_ofPred_eq, picked, hps]
        constructor
        · intro h
          obtain ⟨x, hx, hx2⟩ := Option.map_eq_some_iff.1 h
          refine (List.getElem?_inj (l := scores.map Prod.snd) (by rw [List.length_map]; exact lt_of_getElem?_eq_some hx) hsnd).1 ?_
          rw [List.getElem?_map, List.getElem?_map, hi, hx, Option.map_some, Option.map_some, hx2]
        · intro h
          rw [h, hi]; rfl
      have hip : i < ps.length := by omega
      have h3' : (scores.map Prod.fst)[i]? = some (.fin p) := by rw [List.getElem?_map, hi]; rfl
      rw [hps, List.getElem?_map, List.getElem?_eq_getElem hip] at h3'
      have hpi : ps[i] = p := by simpa using h3'
      refine ⟨hpi ▸ hpos _ (List.getElem_mem hip), ?_, ?_⟩
      · rw [hset]; exact randomPosition_measurable ps i
      · rw [uniform, MeasureTheory.Measure.restrict_apply (by rw [hset]; exact randomPosition_measurable ps i), hset, Set.inter_comm]
        have := Client.C41_proportional ps hpos hone i hip
        rw [show Set.Ico (0 : ℝ) 1 ∩ {t : ℝ | Client.randomPosition Arith.xr (ps.map XR.fin) (.fin t) = i} =
          {t : ℝ | t ∈ Set.Ico 0 1 ∧ Client.randomPosition Arith.xr (ps.map XR.fin) (.fin t) = i} from rfl, this, hpi]
    · have hset : {t : ℝ | picked scores (.fin t) = some sym} = ∅ := by
        ext t
        simp only [Set.mem_ofPred_eq, Set.mem_empty_iff_false, iff_false]
        intro e
        obtain ⟨x, hx, e'⟩ := hall t
        rw [e'] at e
        cases e
        exact hm (hsndp.mem_iff.1 (List.mem_map_of_mem hx))
      rw [hset]
      exact ⟨le_refl _, .empty, by simp⟩

/-- The chance of beginning with `syms`, and what happens then. -/
theorem Offered.begins (hE : ∀ l, (sort l).Perm l) {maxLen : Nat} {h h' : Hub Arith.xr σ} {s s' : Int} {r r' : LMScores XR} {syms : List Str} {q : ℝ}
    (ho : Offered env decode h s r syms q h' s' r') :
    ∀ (sent : List (Client.Rpc XR)) {text : Str},
    (∀ (ys zs : List Str) (z : Str), syms = ys ++ z :: zs → text.length + ys.flatten.length < maxLen) →
    ∃ (B : Nat → Set ℝ) (sent' : List (Client.Rpc XR)),
      0 ≤ q ∧ Proper r' ∧
      (syms = [] → sent' = sent) ∧ (∀ i, MeasurableSet (B i)) ∧ ∏ i ∈ Finset.range syms.length, uniform (B i) = ENNReal.ofReal q ∧
      ∀ u : Nat → ℝ,
        ((∀ i < syms.length, u i ∈ B i) → ∀ f,
          Client.randLoop (A := Arith.xr) (Client.Env.xr sort decode) (service env decode) maxLen (f + syms.length)
            ⟨(h, fun i => .fin (u i)), sent⟩ s (sort (r.probs.zip r.symbols)) text =
          if syms = [] ∨ (text ++ syms.flatten).length < maxLen then
            Client.randLoop (A := Arith.xr) (Client.Env.xr sort decode) (service env decode) maxLen f
              ⟨(h', fun i => .fin (u (i + syms.length))), sent'⟩ s' (sort (r'.probs.zip r'.symbols)) (text ++ syms.flatten)
          else .ok (Client.randFinish (text ++ syms.flatten) maxLen, ⟨(h', fun i => .fin (u (i + syms.length))), sent'⟩)) ∧
        (¬ (∀ i < syms.length, u i ∈ B i) → ∀ f g w,
          Client.randLoop (A := Arith.xr) (Client.Env.xr sort decode) (service env decode) maxLen f
            ⟨(h, fun i => .fin (u i)), sent⟩ s (sort (r.probs.zip r.symbols)) text = .ok (g, w) → ¬ (text ++ syms.flatten) <+: g.text) := by
  induction ho with
  | nil hp =>
    intro sent text _
    refine ⟨fun _ => Set.univ, sent, zero_le_one, hp, fun _ => rfl, fun _ => .univ, by simp, fun u => ⟨fun _ f => ?_, fun h => ?_⟩⟩
    · simp
    · exact absurd (fun i hi => absurd hi (by simp)) h
  | @cons h h1 h2 h' s s1 s' r r1 r' sym syms p q hp hne hli hup hnx ho ih =>
    intro sent text hshort
    have hp1 : Proper r1 := by cases ho <;> assumption
    obtain ⟨hall, hone⟩ := hp.draw hE
    obtain ⟨p0, p2, p3⟩ := hone sym p (.inl hli)
    have e1 : ∀ u, Client.updateCountGetDestStateScore (A := Arith.xr) (Client.Env.xr sort decode) (service env decode) ⟨(h, u), sent⟩ sym s 1 =
        (some (s1, sort (r1.probs.zip r1.symbols)), ⟨(h2, u), sent ++ [.update (toInt32 s) (decode sym) 1 (some r1)] ++ [.nextState sym (toInt32 s) (some s1)]⟩) := by
      intro u
      simp only [Client.updateCountGetDestStateScore, Client.rpcUpdate, Client.rpcNextState, service]
      rw [show (Client.Env.xr sort decode).decode = decode from rfl, hup]
      simp only [replied]
      rw [hp1.top]
      simp only [hnx]
      rfl
    obtain ⟨B, sent', d0, d1, d9, d3, d4, d5⟩ := ih (sent ++ [.update (toInt32 s) (decode sym) 1 (some r1)] ++ [.nextState sym (toInt32 s) (some s1)])
      (text := text ++ sym) (fun ys zs z e => by
        have := hshort (sym :: ys) zs z (by rw [e]; rfl)
        simp only [List.flatten_cons, List.length_append] at this ⊢
        omega)
    have htext : text.length < maxLen := by simpa using hshort [] syms sym rfl
    refine ⟨fun i => match i with | 0 => {t : ℝ | picked (sort (r.probs.zip r.symbols)) (.fin t) = some sym} | i + 1 => B i, sent',
      by positivity, d1, fun e => absurd e (by simp), ?_, ?_, fun u => ⟨fun hu f => ?_, fun hu f g w he hpre => ?_⟩⟩
    · intro i
      cases i with
      | zero => exact p2
      | succ i => exact d3 i
    · rw [List.length_cons, Finset.prod_range_succ', d4, p3, ← ENNReal.ofReal_mul d0, mul_comm]
    · have hp0 : picked (sort (r.probs.zip r.symbols)) (.fin (u 0)) = some sym := hu 0 (by simp)
      rw [List.length_cons, ← Nat.add_assoc, randLoop_step]
      simp only [hp0, if_neg hne]
      rw [e1]
      simp only
      have hrest := (d5 (fun i => u (i + 1))).1 (fun i hi => hu (i + 1) (by simpa using hi)) f
      rw [List.flatten_cons, ← List.append_assoc]
      cases hxs : syms with
      | nil =>
        subst hxs
        obtain rfl := d9 rfl
        obtain ⟨rfl, rfl, rfl⟩ : h' = h2 ∧ s' = s1 ∧ r' = r1 := by cases ho; exact ⟨rfl, rfl, rfl⟩
        simp only [List.length_nil, List.flatten_nil, List.append_nil, true_or, if_true, Nat.add_zero] at hrest
        simp only [reduceCtorEq, false_or, List.flatten_nil, List.append_nil, List.length_nil, Nat.add_zero]
        split
        · rfl
        · rfl
      | cons y ys =>
        subst hxs
        have hlt : (text ++ sym).length < maxLen := by
          have := hshort [sym] ys y rfl
          simpa using this
        rw [if_pos hlt]
        simp only [reduceCtorEq, false_or] at hrest ⊢
        exact hrest
    · cases f with
      | zero => cases he
      | succ f =>
        rw [randLoop_step] at he
        rw [List.flatten_cons, ← List.append_assoc] at hpre
        obtain ⟨sy, hsy, hpick⟩ := hall (u 0)
        simp only [hpick] at he
        by_cases hu0 : sy = sym
        · subst hu0
          simp only [if_neg hne] at he
          rw [e1] at he
          simp only at he
          have hbad : ¬ ∀ i < syms.length, u (i + 1) ∈ B i := by
            intro hok
            refine hu fun i hi => ?_
            cases i with
            | zero => exact hpick
            | succ i => exact hok i (by simpa using hi)
          cases hxs : syms with
          | nil => subst hxs; exact hbad (fun i hi => absurd hi (by simp))
          | cons y ys =>
            have hlt : (text ++ sy).length < maxLen := by
              have := hshort [sy] ys y (by rw [hxs]; rfl)
              simpa using this
            rw [if_pos hlt] at he
            exact (d5 (fun i => u (i + 1))).2 hbad f g w he hpre
        · by_cases hs0 : sy = []
          · simp only [hs0, if_true] at he
            cases he
            have := hpre.length_le
            have hlen : (Client.randFinish text maxLen).text = text := by
              unfold Client.randFinish
              rw [if_neg (by omega)]
            rw [hlen] at this
            have : 0 < sym.length := List.length_pos_iff.2 hne
            simp only [List.length_append] at *
            omega
          · simp only [if_neg hs0] at he
            have hpre2 : text ++ sy <+: g.text := by
              cases hr : Client.updateCountGetDestStateScore (A := Arith.xr) (Client.Env.xr sort decode)
                  (service env decode) ⟨(h, later fun i => .fin (u i)), sent⟩ sy s 1 with
              | mk a w1 =>
                rw [hr] at he
                cases a with
                | none => cases he; exact List.prefix_refl _
                | some z =>
                  simp only at he
                  split at he
                  · exact randLoop_prefix f he
                  · cases he
                    unfold Client.randFinish
                    split <;> simp
            have hpre1 : text ++ sym <+: g.text := (List.prefix_append _ _).trans hpre
            have hin : sym ∈ r.symbols := (List.of_mem_zip hli).2
            rcases List.prefix_or_prefix_of_prefix hpre1 hpre2 with hh | hh
            · rw [List.prefix_append_right_inj] at hh
              exact hu0 (hp.apart sym hin sy hsy hne hh).symm
            · rw [List.prefix_append_right_inj] at hh
              exact hu0 (hp.apart sy hsy sym hin hs0 hh)

/-- **C97** The client generates a text with any server, in front of whatever models, in whatever state. If the server's
replies along the symbols are distributions, the text begins with these symbols exactly with the product of the
probabilities in the replies, each to the request that counted the symbol before; and it is exactly this text with the
probability of the end (the empty symbol) in the last reply in addition. -/
theorem C97_chain (hsort : ∀ l, (sort l).Perm l) {ctx : Str} {s s' : Int} {r r' : LMScores XR} {h h2 h' : Hub Arith.xr σ} {syms : List Str} {q : ℝ}
    (hop : Opened env decode h ctx s r h2) (ho : Offered env decode h2 s r syms q h' s' r') (hshort : syms.dropLast.flatten.length < 128)
    (sent : List (Client.Rpc XR)) {f : Nat} (hfuel : 128 ≤ f) :
    uniforms {u | ∃ g w, Client.randGen (A := Arith.xr) (Client.Env.xr sort decode) (service env decode) f ⟨(h, fun i => .fin (u i)), sent⟩ ctx =
      .ok (g, w) ∧ (ctx ++ syms.flatten) <+: g.text} = ENNReal.ofReal q ∧
    (syms.flatten.length < 128 → ∀ p, Gives r' [] p →
      uniforms {u | ∃ w, Client.randGen (A := Arith.xr) (Client.Env.xr sort decode) (service env decode) f ⟨(h, fun i => .fin (u i)), sent⟩ ctx =
        .ok (⟨true, ctx ++ syms.flatten⟩, w)} = ENNReal.ofReal (q * p)) := by
  have hpr : Proper r := by cases ho <;> assumption
  obtain ⟨⟨h1, o1, o2⟩, o3⟩ := hop
  have hgen : ∀ (u : Nat → XR) (f : Nat),
      Client.randGen (A := Arith.xr) (Client.Env.xr sort decode) (service env decode) f ⟨(h, u), sent⟩ ctx =
      Client.randLoop (A := Arith.xr) (Client.Env.xr sort decode) (service env decode) (128 + ctx.length) f
        ⟨(h2, u), sent ++ [.nextState ctx (-1) (some s)] ++ [.lmScores [] (toInt32 s) (some r)]⟩ s (sort (r.probs.zip r.symbols)) ctx := by
    intro u f
    simp only [Client.randGen, Client.rpcNextState, Client.getLMScores, Client.getLMScore, service, o1, replied, o2]
    rw [hpr.top]
    simp only
    rw [if_neg (by
      simpa [Arith.xr] using o3)]
    rfl
  have hlenb : ∀ (ys zs : List Str) (z : Str), syms = ys ++ z :: zs → ys.flatten.length < 128 := by
    rintro ys zs z rfl
    rw [List.dropLast_append_cons, List.flatten_append, List.length_append] at hshort
    omega
  have hbyte : ∀ {h h' : Hub Arith.xr σ} {s s' : Int} {r r' : LMScores XR} {syms : List Str} {q : ℝ}, Offered env decode h s r syms q h' s' r' →
      syms.length ≤ syms.flatten.length := by
    intro h h' s s' r r' syms q ho
    induction ho with
    | nil => simp
    | cons _ hne _ _ _ _ ih =>
      have := List.length_pos_iff.2 hne
      simp only [List.flatten_cons, List.length_append, List.length_cons]
      omega
  have hxl : syms.length ≤ 128 := by
    have hdrop : ∀ {h h' : Hub Arith.xr σ} {s s' : Int} {r r' : LMScores XR} {syms : List Str} {q : ℝ}, Offered env decode h s r syms q h' s' r' →
        ∀ x ∈ syms, x ≠ [] := by
      intro h h' s s' r r' syms q ho
      induction ho with
      | nil => simp
      | cons _ hne _ _ _ _ ih =>
        intro x hx
        rcases List.mem_cons.1 hx with rfl | hx
        · exact hne
        · exact ih x hx
    have hb : ∀ l : List Str, (∀ x ∈ l, x ≠ []) → l.length ≤ l.flatten.length := by
      intro l
      induction l with
      | nil => simp
      | cons x l ih =>
        intro hx
        have := List.length_pos_iff.2 (hx x (by simp))
        have := ih fun y hy => hx y (by simp [hy])
        simp only [List.flatten_cons, List.length_append, List.length_cons]
        omega
    have := hb syms.dropLast fun x hx => hdrop ho x (List.mem_of_mem_dropLast hx)
    rw [List.length_dropLast] at this
    omega
  obtain ⟨B, sent', d0, d1, _, d3, d4, d5⟩ := ho.begins (maxLen := 128 + ctx.length) hsort
    (sent ++ [.nextState ctx (-1) (some s)] ++ [.lmScores [] (toInt32 s) (some r)]) (text := ctx)
    (fun ys zs z e => by have := hlenb ys zs z e; omega)
  refine ⟨?_, fun hlt p hp => ?_⟩
  · rw [← d4, ← uniforms_box B d3]
    congr 1
    ext u
    simp only [Set.mem_ofPred_eq]
    constructor
    · rintro ⟨g, w, e, hpre⟩
      by_contra hn
      rw [hgen] at e
      exact (d5 u).2 hn _ _ _ e hpre
    · intro hu
      obtain ⟨g, w, e, _⟩ := Client.C42_generation (Client.Env.xr sort decode) hsort (service env decode) ⟨(h, fun i => .fin (u i)), sent⟩ ctx f hfuel
      refine ⟨g, w, e, ?_⟩
      rw [hgen, show f = f - syms.length + syms.length by omega, (d5 u).1 hu] at e
      split at e
      · exact randLoop_prefix _ e
      · simp only [Except.ok.injEq, Prod.mk.injEq] at e
        rw [← e.1]
        unfold Client.randFinish
        split <;> simp
  · obtain ⟨hall, hone⟩ := d1.draw hsort
    obtain ⟨p0, p2, p3⟩ := hone [] p hp
    have hbox := uniforms_box (fun i => if i < syms.length then B i else {t : ℝ | picked (sort (r'.probs.zip r'.symbols)) (.fin t) = some []}) (fun i => by
      split
      · exact d3 i
      · exact p2) (syms.length + 1)
    rw [Finset.prod_range_succ, if_neg (by omega), p3, Finset.prod_congr rfl (g := fun i => uniform (B i)) (fun i hi => by
      rw [if_pos (Finset.mem_range.1 hi)]), d4, ← ENNReal.ofReal_mul d0] at hbox
    rw [← hbox]
    congr 1
    ext u
    simp only [Set.mem_ofPred_eq]
    have hxf : syms.length < f := by have := hbyte ho; omega
    have hlt' : (ctx ++ syms.flatten).length < 128 + ctx.length := by rw [List.length_append]; omega
    have hfin : Client.randFinish (ctx ++ syms.flatten) (128 + ctx.length) = ⟨true, ctx ++ syms.flatten⟩ := by
      unfold Client.randFinish
      rw [if_neg (by omega)]
    have hlast : (∀ i < syms.length, u i ∈ B i) → Client.randGen (A := Arith.xr) (Client.Env.xr sort decode)
        (service env decode) f ⟨(h, fun i => .fin (u i)), sent⟩ ctx =
        Client.randLoop (A := Arith.xr) (Client.Env.xr sort decode) (service env decode) (128 + ctx.length)
          (f - syms.length - 1 + 1) ⟨(h', fun i => .fin (u (i + syms.length))), sent'⟩ s' (sort (r'.probs.zip r'.symbols)) (ctx ++ syms.flatten) := by
      intro hu
      have := (d5 u).1 hu (f - syms.length - 1 + 1)
      rw [if_pos (.inr hlt'), show f - syms.length - 1 + 1 + syms.length = f by omega] at this
      rw [hgen, this]
    constructor
    · rintro ⟨w, e⟩
      have hu : ∀ i < syms.length, u i ∈ B i := by
        by_contra hn
        rw [hgen] at e
        exact (d5 u).2 hn _ _ _ e (List.prefix_refl _)
      intro i hi
      by_cases hix : i < syms.length
      · rw [if_pos hix]; exact hu i hix
      · rw [if_neg hix]
        have hie : i = syms.length := by omega
        subst hie
        obtain ⟨sym, _, hpick⟩ := hall (u syms.length)
        simp only [Set.mem_ofPred_eq, hpick, Option.some.injEq]
        by_contra hne
        rw [hlast hu, randLoop_step] at e
        simp only [Nat.zero_add, hpick, if_neg hne] at e
        have hpre : ctx ++ syms.flatten ++ sym <+: ctx ++ syms.flatten := by
          cases hr : Client.updateCountGetDestStateScore (A := Arith.xr) (Client.Env.xr sort decode)
              (service env decode) ⟨(h', later fun i => .fin (u (i + syms.length))), sent'⟩ sym s' 1 with
          | mk a w1 =>
            rw [hr] at e
            cases a with
            | none =>
              simp only [Except.ok.injEq, Prod.mk.injEq, Client.Gen.mk.injEq, Bool.false_eq_true, false_and] at e
            | some z =>
              simp only at e
              split at e
              · exact randLoop_prefix _ e
              · simp only [Except.ok.injEq, Prod.mk.injEq] at e
                have hh : ctx ++ syms.flatten ++ sym <+: (Client.randFinish (ctx ++ syms.flatten ++ sym) (128 + ctx.length)).text := by
                  unfold Client.randFinish
                  split <;> simp
                rw [e.1] at hh
                exact hh
        have := hpre.length_le
        have h0 : 0 < sym.length := List.length_pos_iff.2 hne
        rw [List.length_append] at this
        omega
    · intro hu
      have hbefore : ∀ i < syms.length, u i ∈ B i := fun i hi => by
        have := hu i (by omega)
        rwa [if_pos hi] at this
      have hend := hu syms.length (by omega)
      rw [if_neg (by omega)] at hend
      simp only [Set.mem_ofPred_eq] at hend
      rw [hlast hbefore, randLoop_step]
      simp only [Nat.zero_add, hend, if_true, hfin]
      exact ⟨_, rfl⟩

theorem Proper.best (hsort : SortsFalling sort) (hp : Proper r) {k : Nat} (hk : k ≤ r.symbols.length) :
    ∃ l : List (ℝ × Str), (sort (r.probs.zip r.symbols)).take k = l.map (fun x => (.fin x.1, x.2)) ∧ Best r k l := by
  obtain ⟨ps, h1, h2, _, _⟩ := hp.distribution
  have hl : r.probs.length = r.symbols.length := by rw [h1, List.length_map, h2]
  obtain ⟨hperm, hpair⟩ := hsort (r.probs.zip r.symbols)
  have hzip : ∀ x ∈ r.probs.zip r.symbols, ∃ p : ℝ, x.1 = .fin p := by
    intro x hx
    have := (List.of_mem_zip hx).1
    rw [h1] at this
    obtain ⟨p, _, e⟩ := List.mem_map.1 this
    exact ⟨p, e.symm⟩
  have hpair' := hpair hzip
  have hslen : (sort (r.probs.zip r.symbols)).length = r.symbols.length := by rw [hperm.length_eq, List.length_zip]; omega
  have hsnd : ((sort (r.probs.zip r.symbols)).map Prod.snd).Nodup := by
    refine (hperm.map Prod.snd).nodup_iff.2 ?_
    rw [List.map_snd_zip (by omega)]; exact hp.distinct
  obtain ⟨nums, hnums⟩ : ∃ nums : List (ℝ × Str), sort (r.probs.zip r.symbols) = nums.map fun x => (.fin x.1, x.2) := by
    refine ⟨(sort (r.probs.zip r.symbols)).map fun x => (number x.1, x.2), ?_⟩
    rw [List.map_map, List.map_congr_left (g := id), List.map_id]
    intro x hx
    obtain ⟨p, e⟩ := hzip x (hperm.mem_iff.1 hx)
    obtain ⟨x1, x2⟩ := x
    simp only at e
    subst e
    rfl
  rw [hnums] at hperm hpair' hslen hsnd ⊢
  rw [List.length_map] at hslen
  rw [List.map_map] at hsnd
  have hfall : nums.Pairwise fun a b => b.1 ≤ a.1 := by
    rw [List.pairwise_map] at hpair'
    refine hpair'.imp fun {a b} hab => ?_
    simp only [XR.lt, not_lt] at hab
    exact hab
  refine ⟨nums.take k, by rw [List.map_take], by rw [List.length_take]; omega, hfall.sublist (List.take_sublist _ _), ?_, fun x hx => ?_,
    fun sym p hli hn x hx => ?_⟩
  · rw [List.map_take]; exact (show (nums.map Prod.snd).Nodup from hsnd).sublist (List.take_sublist _ _)
  · exact hperm.mem_iff.1 (List.mem_map.2 ⟨x, List.mem_of_mem_take hx, rfl⟩)
  · obtain ⟨z, z1, z2⟩ := List.mem_map.1 (hperm.mem_iff.2 hli)
    simp only [Prod.mk.injEq, XR.fin.injEq] at z2
    have hz : z ∈ nums.drop k := by
      rw [← List.take_append_drop k nums] at z1
      rcases List.mem_append.1 z1 with hz | hz
      · exact absurd (List.mem_map.2 ⟨z, hz, z2.2⟩) hn
      · exact hz
    rw [← List.take_append_drop k nums, List.pairwise_append] at hfall
    rw [← z2.1]
    exact hfall.2.2 x hx z hz

/-- **C97** The most likely continuations that the client prints, with any server: those of the server's reply. For more
than there are in the reply it reads beyond the end of the list. -/
theorem C97_kbest (hsort : SortsFalling sort) {ctx : Str} {r : LMScores XR} {h h' : Hub Arith.xr σ}
    (he : getLMScores env h (decode ctx) (-1) = .ok (.ok r, h')) (hn : ¬ XR.le r.norm (.fin 0)) (hp : Proper r)
    (random : Nat → XR) (sent : List (Client.Rpc XR)) (k : Int) :
    (k ≤ r.symbols.length → ∃ (l : List (ℝ × Str)) (w : Client.World XR (Hub Arith.xr σ × (Nat → XR))), Best r k.toNat l ∧ w.srv.1 = h' ∧
      Client.oneKbestSample (A := Arith.xr) (Client.Env.xr sort decode) (service env decode) ⟨(h, random), sent⟩ k ctx =
        .ok (some (l.map fun x => (.fin x.1, x.2)), w)) ∧
    ((r.symbols.length : Int) < k →
      Client.oneKbestSample (A := Arith.xr) (Client.Env.xr sort decode) (service env decode) ⟨(h, random), sent⟩ k ctx = .error .ub) := by
  have hscores : Client.getLMScores (A := Arith.xr) (Client.Env.xr sort decode) (service env decode)
      ⟨(h, random), sent⟩ ctx (-1) = (some (sort (r.probs.zip r.symbols)), ⟨(h', random), sent ++ [.lmScores ctx (-1) (some r)]⟩) := by
    simp only [Client.getLMScores, Client.getLMScore, service, show toInt32 (-1) = -1 by decide, he, replied]
    rw [hp.top]
    simp only
    rw [if_neg (by simpa [Arith.xr] using hn)]
    rfl
  obtain ⟨ps, h1, h2, _, _⟩ := hp.distribution
  have hlen : (sort (r.probs.zip r.symbols)).length = r.symbols.length := by
    rw [((hsort _).1).length_eq, List.length_zip, h1, List.length_map, h2, Nat.min_self]
  refine ⟨fun hk => ?_, fun hk => ?_⟩
  · obtain ⟨l, l1, l2⟩ := hp.best hsort (k := k.toNat) (by omega)
    refine ⟨l, ⟨(h', random), sent ++ [.lmScores ctx (-1) (some r)]⟩, l2, rfl, ?_⟩
    simp only [Client.oneKbestSample, hscores]
    rw [Client.kbestLoop_ok _ _ _ (by omega), ok_bind, List.drop_zero, l1]
  · simp only [Client.oneKbestSample, hscores]
    rw [Client.kbestLoop_ub _ _ _ (by omega) (by omega)]
    rfl

end Mozolm.System
