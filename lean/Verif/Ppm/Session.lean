import Verif.Ppm.Calls
import Verif.Ppm.MemoryRun

/-! # Learning a text one character at a time -/

namespace Mozolm.Ppm
open Classical
variable {K V : Nat} {M : Memory} {a : Alphabet}

/-- The text taught one character at a time: each after the text before it. -/
def spelled (n : Int) : List Int → List Int → List Call
  | _, [] => []
  | past, c :: text => .learn past [c] n :: spelled n (past ++ [c]) text

theorem spelled_append (n : Int) (text rest : List Int) : ∀ past : List Int,
    spelled n past (text ++ rest) = spelled n past text ++ spelled n (past ++ text) rest := by
  induction text with
  | nil => intro past; simp [spelled]
  | cons c text ih => intro past; simp [spelled, ih]

theorem past_snoc (a : Alphabet) (p : List Int) (c : Int) : a.past (p ++ [c]) = a.typed c :: a.past p := by
  simp [Alphabet.past]

/-- An observation counts in the contexts of the place of the observation only. -/
theorem Memory.observeN_count (c : List Int) (y : Int) (n : Nat) : ∀ (M : Memory) (d : List Int) (z : Int),
    0 < (M.observeN K c y n).count d z → 0 < M.count d z ∨ d <+: c := by
  induction n with
  | zero => intro M d z h; exact .inl h
  | succ n ih =>
    intro M d z h
    rcases ih _ d z h with h | h
    · simp only [Memory.observe] at h
      split at h
      · next hc => exact .inr hc.2.1
      · exact .inl h
    · exact .inr h

theorem Memory.learn_single (n : Nat) (c : List Int) (sym : Int) :
    M.learn K a n c [sym] = (M.learnOne K a n c sym).1 := by
  simp [Memory.learn]

theorem Memory.learn_count (n : Nat) (c : List Int) (sym : Int) {d : List Int} {z : Int}
    (h : 0 < (M.learn K a n c [sym]).count d z) : 0 < M.count d z ∨ d <+: c := by
  rw [Memory.learn_single] at h
  unfold Memory.learnOne at h
  split at h
  · exact .inl h
  · exact Memory.observeN_count _ _ _ _ _ _ h

/-- What came before the context that was learnt after does not matter for where a character leads. -/
theorem Memory.learnt_longest {M' : Memory} (hg : M.Grounded K V) (hg' : M'.Grounded K V) {past : List Int}
    (hc : ∀ (d : List Int) (z : Int), 0 < M'.count d z → 0 < M.count d z ∨ d <+: M.longest past) {x : Int} (hx : x ≠ 0) :
    M'.longest (x :: M.longest past) = M'.longest (x :: past) := by
  obtain ⟨k1, k2, k3⟩ := M.longest_spec hg.nil past
  obtain ⟨l1, l2, l3⟩ := M'.longest_spec hg'.nil (x :: M.longest past)
  refine M'.longest_eq hg'.nil l1 (l2.trans ((List.prefix_cons_inj x).mpr k2)) fun e he hpre => ?_
  refine l3 e he ?_
  cases e with
  | nil => exact List.nil_prefix
  | cons z e =>
    obtain ⟨rfl, hpre'⟩ := List.cons_prefix_cons.mp hpre
    rw [List.prefix_cons_inj]
    have hlt : e.length < K := by have := hg'.short _ he; simp only [List.length_cons] at this; omega
    rcases hc e z (hg'.seen z e he hx) with h | h
    · exact List.prefix_of_prefix_length_le hpre' k2 (k3 e (hg.counted e z h hlt) hpre')
    · exact h

/-- Learning a text of characters of the alphabet at once is learning it one character at a time. -/
theorem Memory.learn_spelled (Ok : Memory → Prop) (hok : ∀ M, Ok M → M.Grounded K V)
    {n : Int} (hn : 0 < n) (hstep : ∀ M past c, Ok M → Ok (M.learn K a n.toNat (M.longest past) [c])) (hx : ∀ c, a.typed c ≠ 0)
    (text : List Int) (ht : ∀ c ∈ text, a.taught c ≠ none) : ∀ (M : Memory) (past : List Int), Ok M →
    M.learn K a n.toNat (M.longest (a.past past)) text = M.uses K V a (spelled n past text) := by
  induction text with
  | nil => intro M past _; rfl
  | cons c text ih =>
    intro M past hM
    have hM' := hstep M (a.past past) c hM
    have hstep' : M.learnOne K a n.toNat (M.longest (a.past past)) c =
        (M.learn K a n.toNat (M.longest (a.past past)) [c],
          (M.learn K a n.toNat (M.longest (a.past past)) [c]).longest (a.typed c :: M.longest (a.past past))) := by
      rw [Memory.learn_single]
      unfold Memory.learnOne
      cases h : a.taught c with
      | none => exact absurd h (ht c (by simp))
      | some y => rfl
    simp only [spelled, Memory.uses, List.foldl_cons, Memory.use, if_pos hn]
    rw [Memory.learn, hstep']
    simp only
    rw [Memory.learnt_longest (hok _ hM) (hok _ hM') (fun d z h => Memory.learn_count _ _ _ h) (hx c), ← past_snoc]
    exact ih (fun d hd => ht d (by simp [hd])) _ _ hM'

end Mozolm.Ppm
