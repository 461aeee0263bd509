import Verif.Client.Spec
import Verif.Scores.Spec
import Verif.Basic

/-!
# C41, C42, C43, C57: the client (structural part, any arithmetic)
-/

namespace Mozolm.Client

open Scores

variable {A : Arith} {ω : Type}

theorem randomLoop_spec (A : Arith) (t total : A.D) (i : Nat) (ps : List A.D) :
    ∃ k, randomLoop A t total i ps = i + k ∧ k ≤ ps.length ∧
      (∀ j, j < k → A.dlt ((ps.take j).foldl A.dadd total) t = true) ∧
      (k < ps.length → A.dlt ((ps.take k).foldl A.dadd total) t = false) := by
  induction ps generalizing total i with
  | nil => exact ⟨0, rfl, Nat.le_refl _, fun j h => absurd h (Nat.not_lt_zero _), fun h => by simp at h⟩
  | cons p ps ih =>
    by_cases h : A.dlt total t = true
    · obtain ⟨k, h1, h2, h3, h4⟩ := ih (A.dadd total p) (i + 1)
      refine ⟨k + 1, ?_, ?_, ?_, ?_⟩
      · rw [randomLoop, if_pos h, h1]; omega
      · simpa using h2
      · intro j hj
        cases j with
        | zero => simpa using h
        | succ j => simpa using h3 j (by omega)
      · intro hk
        simp only [List.length_cons] at hk
        simpa using h4 (by omega)
    · refine ⟨0, ?_, Nat.zero_le _, fun j hj => absurd hj (Nat.not_lt_zero _), fun _ => ?_⟩
      · rw [randomLoop, if_neg h]; rfl
      · simpa using h

/-- **C41** (any arithmetic, any threshold) The sampled position is a valid index of a non-empty list;
the cumulative probability was still below the threshold at every earlier point, and has reached it
with the sampled entry unless that is the last entry (or the threshold is not above zero). -/
theorem C41_first_to_reach (probs : List A.D) (t : A.D) (hne : probs ≠ []) :
    randomPosition A probs t < probs.length ∧
    (∀ j, j ≤ randomPosition A probs t → 0 < randomPosition A probs t →
      A.dlt (cum A probs j) t = true) ∧
    (A.dlt (cum A probs (randomPosition A probs t + 1)) t = false ∨
      randomPosition A probs t + 1 = probs.length ∨
      (randomPosition A probs t = 0 ∧ A.dlt (A.ofInt 0) t = false)) := by
  obtain ⟨k, h1, h2, h3, h4⟩ := randomLoop_spec A t (A.ofInt 0) 0 probs
  have hl : 0 < probs.length := List.length_pos_iff.2 hne
  rw [Nat.zero_add] at h1
  have hpos : randomPosition A probs t = if k > 0 then k - 1 else k := by
    simp only [randomPosition, h1]
  by_cases hk : k > 0
  · rw [if_pos hk] at hpos
    rw [hpos]
    refine ⟨by omega, fun j hj _ => h3 j (by omega), ?_⟩
    rw [Nat.sub_add_cancel hk]
    by_cases e : k = probs.length
    · exact .inr (.inl e)
    · exact .inl (h4 (by omega))
  · have hk0 : k = 0 := by omega
    subst hk0
    rw [if_neg hk] at hpos
    rw [hpos]
    refine ⟨hl, fun j _ h => absurd h (Nat.lt_irrefl _), .inr (.inr ⟨rfl, ?_⟩)⟩
    have := h4 hl
    simpa using this

/-! ## what the RPC wrappers do -/

/-- the contract of the sort: a rearrangement -/
def Rearranges (E : Env A) : Prop := ∀ l, (E.sort l).Perm l

theorem top_ok {E : Env A} (hE : Rearranges E) {r : LMScores A.D} {hyps : List (A.D × Str)}
    (h : getTopHypotheses E.sort r (-1) = .ok hyps) :
    hyps ≠ [] ∧ hyps = E.sort (r.probs.zip r.symbols) ∧ r.probs.length = r.symbols.length ∧
      ∀ x ∈ hyps, x.1 ∈ r.probs ∧ x.2 ∈ r.symbols := by
  simp only [getTopHypotheses] at h
  by_cases h1 : r.probs.length = r.symbols.length
  · rw [if_neg (by simpa using h1), if_neg (by omega)] at h
    by_cases h2 : r.probs.length = 0
    · rw [if_pos h2] at h; cases h
    · rw [if_neg h2, if_neg (by decide)] at h
      simp only [TopResult.ok.injEq] at h
      subst h
      refine ⟨?_, rfl, h1, ?_⟩
      · intro e
        have := (hE (r.probs.zip r.symbols)).length_eq
        rw [e] at this
        simp only [List.length_nil, List.length_zip] at this
        omega
      · intro x hx
        have := (hE _).mem_iff.1 hx
        obtain ⟨a, b⟩ := x
        exact ⟨(List.of_mem_zip this).1, (List.of_mem_zip this).2⟩
  · rw [if_pos h1] at h; cases h

theorem update_some {E : Env A} {S : Service A.D ω} {w w' : World A.D ω} {c : Str}
    {s n s' : Int} {hyps : List (A.D × Str)}
    (h : updateCountGetDestStateScore E S w c s n = (some (s', hyps), w')) :
    ∃ r, getTopHypotheses E.sort r (-1) = .ok hyps ∧
      w'.sent = w.sent ++ [.update (Server.toInt32 s) (E.decode c) n (some r),
        .nextState c (Server.toInt32 s) (some s')] := by
  simp only [updateCountGetDestStateScore, rpcUpdate, rpcNextState] at h
  cases hr : (S.update w.srv (Server.toInt32 s) (E.decode c) n).1 with
  | none => rw [hr] at h; simp at h
  | some r =>
    rw [hr] at h
    cases ht : getTopHypotheses E.sort r (-1) with
    | ok hy =>
      simp only [ht] at h
      generalize hn : S.nextState _ c (Server.toInt32 s) = n' at h
      obtain ⟨a, b⟩ := n'
      cases a with
      | none => simp at h
      | some s1 =>
        simp only [Prod.mk.injEq, Option.some.injEq] at h
        obtain ⟨⟨rfl, rfl⟩, rfl⟩ := h
        exact ⟨r, ht, by simp⟩
    | _ => simp [ht] at h

theorem update_none {E : Env A} {S : Service A.D ω} {w w' : World A.D ω} {c : Str}
    {s n : Int} (h : updateCountGetDestStateScore E S w c s n = (none, w')) :
    ∃ r tail, w'.sent = w.sent ++ .update (Server.toInt32 s) (E.decode c) n r :: tail ∧
      (tail = [] ∨ tail = [.nextState c (Server.toInt32 s) none]) := by
  simp only [updateCountGetDestStateScore, rpcUpdate, rpcNextState] at h
  cases hr : (S.update w.srv (Server.toInt32 s) (E.decode c) n).1 with
  | none =>
    rw [hr] at h
    simp only [Prod.mk.injEq, true_and] at h
    subst h
    exact ⟨none, [], by simp, .inl rfl⟩
  | some r =>
    rw [hr] at h
    cases ht : getTopHypotheses E.sort r (-1) with
    | ok hy =>
      simp only [ht] at h
      generalize hn : S.nextState _ c (Server.toInt32 s) = n' at h
      obtain ⟨a, b⟩ := n'
      cases a with
      | some s1 => simp at h
      | none =>
        simp only [Prod.mk.injEq, true_and] at h
        subst h
        exact ⟨some r, _, by simp, .inr rfl⟩
    | _ =>
      simp only [ht, Prod.mk.injEq, true_and] at h
      subst h
      exact ⟨some r, [], by simp, .inl rfl⟩

theorem getLMScores_some {E : Env A} {S : Service A.D ω} {w w' : World A.D ω} {c : Str}
    {s : Int} {hyps : List (A.D × Str)} (h : getLMScores E S w c s = (some hyps, w')) :
    ∃ r, getTopHypotheses E.sort r (-1) = .ok hyps ∧ A.dle r.norm (A.ofInt 0) = false ∧
      w'.sent = w.sent ++ [.lmScores c (Server.toInt32 s) (some r)] := by
  simp only [getLMScores, getLMScore] at h
  cases hr : (S.lmScores w.srv c (Server.toInt32 s)).1 with
  | none => rw [hr] at h; simp at h
  | some r =>
    rw [hr] at h
    cases ht : getTopHypotheses E.sort r (-1) with
    | ok hy =>
      simp only [ht] at h
      by_cases hn : A.dle r.norm (A.ofInt 0) = true
      · rw [if_pos hn] at h; simp at h
      · rw [if_neg hn] at h
        simp only [Prod.mk.injEq, Option.some.injEq] at h
        obtain ⟨rfl, rfl⟩ := h
        exact ⟨r, ht, by simpa using hn, rfl⟩
    | _ => simp [ht] at h

theorem getLMScores_sent {E : Env A} {S : Service A.D ω} {w w' : World A.D ω} {c : Str}
    {s : Int} {o} (h : getLMScores E S w c s = (o, w')) :
    ∃ r, w'.sent = w.sent ++ [.lmScores c (Server.toInt32 s) r] := by
  simp only [getLMScores, getLMScore] at h
  cases hr : (S.lmScores w.srv c (Server.toInt32 s)).1 with
  | none => rw [hr] at h; simp only [Prod.mk.injEq] at h; obtain ⟨_, rfl⟩ := h; exact ⟨none, rfl⟩
  | some r =>
    rw [hr] at h
    cases ht : getTopHypotheses E.sort r (-1) with
    | ok hy =>
      simp only [ht] at h
      by_cases hn : A.dle r.norm (A.ofInt 0) = true
      · rw [if_pos hn] at h; simp only [Prod.mk.injEq] at h; obtain ⟨_, rfl⟩ := h; exact ⟨some r, rfl⟩
      · rw [if_neg hn] at h; simp only [Prod.mk.injEq] at h; obtain ⟨_, rfl⟩ := h; exact ⟨some r, rfl⟩
    | _ => simp only [ht, Prod.mk.injEq] at h; obtain ⟨_, rfl⟩ := h; exact ⟨some r, rfl⟩

/-! ## C42 -/

/-- what remains in the transcript after the last completed exchange -/
inductive Tail {D : Type} (decode : Str → List Int) (s : Int) (r : LMScores D) :
    Bool → List Str → List (Rpc D) → Prop
  /-- the loop ended normally -/
  | done : Tail decode s r true [] []
  /-- the last chosen symbol was offered, reported, and a reply was an error -/
  | failed {c : Str} {reply : Option (LMScores D)} {rest : List (Rpc D)} : c ∈ r.symbols → c ≠ [] →
      rest = [] ∨ rest = [.nextState c (Server.toInt32 s) none] →
      Tail decode s r false [c] (.update (Server.toInt32 s) (decode c) 1 reply :: rest)

/-- the message of the program, byte by byte, is the remark -/
theorem limitMessage_eq : limitMessage = lengthMark := by decide

theorem randFinish_text (text : Str) (m : Nat) : (randFinish text m).ok = true ∧
    (randFinish text m).text = text ++ (if m ≤ text.length then lengthMark else []) := by
  rw [randFinish, limitMessage_eq]
  split <;> simp

theorem randLoop_spec {E : Env A} (hE : Rearranges E) {S : Service A.D ω} {m : Nat} (fuel : Nat)
    (w : World A.D ω) (s : Int) (r : LMScores A.D) (scores : List (A.D × Str)) (text : Str)
    (hr : getTopHypotheses E.sort r (-1) = .ok scores) (hm : text.length < m)
    (hf : m - text.length ≤ fuel) :
    ∃ g w', randLoop E S m fuel w s scores text = .ok (g, w') ∧
      ∃ cs cs' log log' s' r', Session E.decode s r cs log s' r' ∧
        Tail E.decode s' r' g.ok cs' log' ∧ w'.sent = w.sent ++ log ++ log' ∧
        (cs ++ cs').length ≤ m - text.length ∧
        (g.ok = false → g.text = text ++ (cs ++ cs').flatten) ∧
        (g.ok = true → g.text = text ++ cs.flatten ++
          if m ≤ text.length + cs.flatten.length then lengthMark else []) := by
  induction fuel generalizing w s r scores text with
  | zero => omega
  | succ fuel ih =>
    obtain ⟨t1, t2, t3, t4⟩ := top_ok hE hr
    rw [randLoop]
    generalize hu : S.uniform w.srv = u
    simp only
    have hne : scores.map Prod.fst ≠ [] := by simpa using t1
    have hpos := (C41_first_to_reach (scores.map Prod.fst) u.1 hne).1
    rw [List.length_map] at hpos
    obtain ⟨x, hx⟩ := exists_getElem?_of_lt hpos
    obtain ⟨p, c⟩ := x
    have hmem : c ∈ r.symbols := (t4 _ (List.mem_of_getElem? hx)).2
    simp only [hx]
    by_cases hc : c = []
    · rw [if_pos hc]
      obtain ⟨f1, f2⟩ := randFinish_text text m
      refine ⟨_, _, rfl, [], [], [], [], s, r, .nil s r, ?_, by simp, by simp, ?_, ?_⟩
      · rw [f1]; exact .done
      · rw [f1]; intro h; cases h
      · intro _; rw [f2]; simp
    · rw [if_neg hc]
      have hcl : 0 < c.length := List.length_pos_iff.2 hc
      generalize hup : updateCountGetDestStateScore E S { w with srv := u.2 } c s 1 = up
      obtain ⟨o, w1⟩ := up
      cases o with
      | none =>
        simp only
        obtain ⟨rep, tail, h1, h2⟩ := update_none hup
        refine ⟨_, _, rfl, [], [c], [], _, s, r, .nil s r, Tail.failed (reply := rep) (rest := tail) hmem hc h2, ?_, ?_, ?_, ?_⟩
        · rw [h1]; simp
        · simp; omega
        · simp
        · intro h; cases h
      | some sx =>
        obtain ⟨s1, scores1⟩ := sx
        simp only
        obtain ⟨r1, h1, h2⟩ := update_some hup
        by_cases hlen : (text ++ c).length < m
        · rw [if_pos hlen]
          have hlen' := hlen
          rw [List.length_append] at hlen'
          obtain ⟨g, w', e, cs, cs', log, log', s', r', k1, k2, k3, k4, k5, k6⟩ :=
            ih w1 s1 r1 scores1 (text ++ c) h1 hlen (by rw [List.length_append]; omega)
          refine ⟨g, w', e, c :: cs, cs', _, log', s', r', .cons hmem hc k1, k2, ?_, ?_, ?_, ?_⟩
          · rw [k3, h2]; simp
          · simp only [List.cons_append, List.length_cons]
            rw [List.length_append (as := text)] at k4
            omega
          · intro h; rw [k5 h]; simp
          · intro h
            have := k6 h
            simp only [List.length_append, List.append_assoc, List.flatten_cons, Nat.add_assoc] at this ⊢
            exact this
        · rw [if_neg hlen]
          have hlen' := hlen
          rw [List.length_append] at hlen'
          obtain ⟨f1, f2⟩ := randFinish_text (text ++ c) m
          refine ⟨_, _, rfl, [c], [], _, [], s1, r1, .cons hmem hc (.nil s1 r1), ?_, ?_, ?_, ?_, ?_⟩
          · rw [f1]; exact .done
          · rw [h2]; simp
          · simp; omega
          · rw [f1]; intro h; cases h
          · intro _; rw [f2]; simp

/-- **C42, C57** Random generation ends after at most 128 generated symbols, whatever the server
answers and the random source yields (`fuel` of 128 iterations always suffices).  The text is the
context followed by the generated symbols (and by a remark exactly when they fill 128 bytes); every
symbol is non-empty and one of those offered in the server's last scores; the transcript is exactly:
look up the context's state, get its scores, then for each generated symbol in order one update with
count 1 at the last known state and one look-up of the state after it.  When a reply is an error the
generation stops with the last symbol already in the text. -/
theorem C42_generation (E : Env A) (hE : Rearranges E) (S : Service A.D ω) (w : World A.D ω)
    (ctx : Str) (fuel : Nat) (hf : 128 ≤ fuel) :
    ∃ g w', randGen E S fuel w ctx = .ok (g, w') ∧
      ((g.ok = false ∧ g.text = ctx ∧
          (w'.sent = w.sent ++ [.nextState ctx (-1) none] ∨
           ∃ s o, w'.sent = w.sent ++ [.nextState ctx (-1) (some s),
             .lmScores [] (Server.toInt32 s) o])) ∨
       ∃ s r cs cs' log log' s' r',
        Session E.decode s r cs log s' r' ∧ Tail E.decode s' r' g.ok cs' log' ∧
        w'.sent = w.sent ++ [.nextState ctx (-1) (some s),
          .lmScores [] (Server.toInt32 s) (some r)] ++ log ++ log' ∧
        (cs ++ cs').length ≤ 128 ∧
        (g.ok = false → g.text = ctx ++ (cs ++ cs').flatten) ∧
        (g.ok = true → g.text = ctx ++ cs.flatten ++
          if 128 ≤ cs.flatten.length then lengthMark else [])) := by
  simp only [randGen, rpcNextState]
  cases hn : (S.nextState w.srv ctx (-1)).1 with
  | none => exact ⟨_, _, rfl, .inl ⟨rfl, rfl, .inl rfl⟩⟩
  | some s =>
    simp only
    generalize hg : getLMScores E S _ [] s = gl
    obtain ⟨o, w1⟩ := gl
    cases o with
    | none =>
      obtain ⟨r, h1⟩ := getLMScores_sent hg
      exact ⟨_, _, rfl, .inl ⟨rfl, rfl, .inr ⟨s, r, by rw [h1]; simp⟩⟩⟩
    | some scores =>
      obtain ⟨r, h1, _, h2⟩ := getLMScores_some hg
      obtain ⟨g, w', e, cs, cs', log, log', s', r', k1, k2, k3, k4, k5, k6⟩ :=
        randLoop_spec hE (S := S) (m := maxRandGenLen + ctx.length) fuel w1 s r scores ctx h1
          (by rw [maxRandGenLen]; omega) (by rw [maxRandGenLen]; omega)
      refine ⟨g, w', e, .inr ⟨s, r, cs, cs', log, log', s', r', k1, k2, ?_, ?_, k5, ?_⟩⟩
      · rw [k3, h2]; simp
      · rw [maxRandGenLen] at k4; omega
      · intro h
        rw [k6 h]
        have : (maxRandGenLen + ctx.length ≤ ctx.length + cs.flatten.length) ↔
            128 ≤ cs.flatten.length := by rw [maxRandGenLen]; omega
        simp only [this]

/-- **C42** No undefined behaviour: the position used as an index is always valid. -/
theorem C42_no_fault (E : Env A) (hE : Rearranges E) (S : Service A.D ω) (w : World A.D ω)
    (ctx : Str) (fuel : Nat) (hf : 128 ≤ fuel) (e : Fault) : randGen E S fuel w ctx ≠ .error e := by
  obtain ⟨g, w', h, _⟩ := C42_generation E hE S w ctx fuel hf
  rw [h]
  intro h; cases h

/-! ## C43 -/

theorem kbestLoop_ok (scores : List (A.D × Str)) (n i : Nat) (h : i + n ≤ scores.length) :
    kbestLoop scores i n = .ok ((scores.drop i).take n) := by
  induction n generalizing i with
  | zero => simp [kbestLoop]
  | succ n ih =>
    have hi : i < scores.length := by omega
    rw [kbestLoop, List.getElem?_eq_getElem hi]
    simp only
    rw [ih (i + 1) (by omega), List.drop_eq_getElem_cons hi]
    rfl

theorem kbestLoop_ub (scores : List (A.D × Str)) (n i : Nat) (h : scores.length < i + n)
    (hi : i ≤ scores.length) : kbestLoop scores i n = .error .ub := by
  induction n generalizing i with
  | zero => omega
  | succ n ih =>
    rw [kbestLoop]
    by_cases e : i < scores.length
    · rw [List.getElem?_eq_getElem e]
      simp only
      rw [ih (i + 1) (by omega) (by omega)]
      rfl
    · rw [List.getElem?_eq_none (by omega)]

/-- **C43** For `k` up to the number of scores the `k` most likely continuations are listed, most
likely first (none for `k ≤ 0`); the one RPC sent asks for the scores of the context from the start
state. -/
theorem C43_k_most_likely [LinearOrder A.D] (E : Env A) (hs : SortsBy likelier E.sort)
    (S : Service A.D ω) (w w' : World A.D ω) (k : Int) (ctx : Str) (l : List (A.D × Str))
    (h : oneKbestSample E S w k ctx = .ok (some l, w')) :
    ∃ r, w'.sent = w.sent ++ [.lmScores ctx (-1) (some r)] ∧
      MostLikely k.toNat (r.probs.zip r.symbols) l := by
  simp only [oneKbestSample] at h
  generalize hg : getLMScores E S w ctx (-1) = gl at h
  obtain ⟨o, w1⟩ := gl
  cases o with
  | none => simp at h
  | some scores =>
    obtain ⟨r, h1, _, h2⟩ := getLMScores_some hg
    obtain ⟨t1, t2, t3, t4⟩ := top_ok (fun l => (hs l).1) h1
    simp only at h
    obtain ⟨l', h3, h4⟩ := bind_ok.1 h
    simp only [Except.ok.injEq, Prod.mk.injEq, Option.some.injEq] at h4
    obtain ⟨rfl, rfl⟩ := h4
    refine ⟨r, h2, ?_⟩
    by_cases hk : k.toNat ≤ scores.length
    · rw [kbestLoop_ok scores k.toNat 0 (by omega)] at h3
      simp only [Except.ok.injEq, List.drop_zero] at h3
      subst h3
      have hsort : scores.Pairwise fun a b => b.1 ≤ a.1 := by
        rw [t2]
        exact (hs _).2.imp fun {a b} h => not_lt.1 h
      have hperm : scores.Perm (r.probs.zip r.symbols) := by rw [t2]; exact (hs _).1
      refine ⟨by simp [hk], hsort.sublist (List.take_sublist _ _), scores.drop k.toNat, ?_, ?_⟩
      · rw [List.take_append_drop]; exact hperm
      · intro a ha b hb
        have hp := hsort
        rw [← List.take_append_drop k.toNat scores, List.pairwise_append] at hp
        exact hp.2.2 a ha b hb
    · rw [kbestLoop_ub scores k.toNat 0 (by omega) (by omega)] at h3
      cases h3

/-- **C43 fails** for `k` larger than the number of scores: out-of-bounds access, for every server
whose reply is usable. -/
theorem C43_false (E : Env A) (hE : Rearranges E) (S : Service A.D ω) (w : World A.D ω) (k : Int)
    (ctx : Str) (r : LMScores A.D) (srv : ω) (hr : S.lmScores w.srv ctx (-1) = (some r, srv))
    (hl : r.probs.length = r.symbols.length) (hne : r.probs ≠ [])
    (hn : A.dle r.norm (A.ofInt 0) = false) (hk : (r.symbols.length : Int) < k) :
    oneKbestSample E S w k ctx = .error .ub := by
  have hlen : 0 < r.probs.length := List.length_pos_iff.2 hne
  have ht : getTopHypotheses E.sort r (-1) = .ok (E.sort (r.probs.zip r.symbols)) := by
    simp only [getTopHypotheses]
    rw [if_neg (by simpa using hl), if_neg (by omega), if_neg (by omega), if_neg (by decide)]
  have hg : (getLMScores E S w ctx (-1)).1 = some (E.sort (r.probs.zip r.symbols)) := by
    have e : Server.toInt32 (-1) = -1 := by decide
    simp [getLMScores, getLMScore, e, hr, ht, hn]
  have hlen2 : (E.sort (r.probs.zip r.symbols)).length = r.symbols.length := by
    rw [(hE _).length_eq, List.length_zip, hl, Nat.min_self]
  simp only [oneKbestSample]
  rw [hg]
  simp only
  rw [kbestLoop_ub _ k.toNat 0 (by omega) (by omega)]
  rfl

/-! ## concrete cases -/

/-- a server that offers "a" and the end of string, and whose fourth update fails -/
def demoService : Service Unit Nat where
  lmScores n _ _ := (some ⟨[[97], []], [(), ()], ()⟩, n)
  nextState n _ _ := (some 5, n)
  update n _ _ _ := if n = 3 then (none, n) else (some ⟨[[97], []], [(), ()], ()⟩, n + 1)
  uniform n := ((), n)

/-- the same, never failing -/
def endlessService : Service Unit Nat := { demoService with
  update := fun n _ _ _ => (some ⟨[[97], []], [(), ()], ()⟩, n + 1)
  lmScores := fun n _ _ => (some ⟨[[97], []], [(), ()], ()⟩, n) }

def demoEnv : Env { Arith.unit with dle := fun _ _ => false } where
  sort l := l
  decode _ := [97]
  bits _ := ()
  mixUniform := ()
  mixKeep := ()

example : Rearranges demoEnv := fun _ => .refl _

/-- stops at the failed update, with four symbols in the text -/
example : (randGen demoEnv demoService 128 ⟨0, []⟩ [98]).map (fun x => x.1) =
    .ok { ok := false, text := [98, 97, 97, 97, 97] } := by rfl

/-- runs into the length limit: 1 byte of context, 128 generated, and the remark -/
example : (randGen demoEnv endlessService 128 ⟨0, []⟩ [98]).map (fun x => (x.1.ok, x.1.text.length)) =
    .ok (true, 1 + 128 + 22) := by rfl

/-- one too many asked for -/
example : (oneKbestSample demoEnv demoService ⟨0, []⟩ 3 []).map (fun x => x.1) = .error .ub := by rfl

example : (oneKbestSample demoEnv demoService ⟨0, []⟩ 1 []).map (fun x => x.1) =
    .ok (some [((), [97])]) := by rfl

end Mozolm.Client
