import Verif.Props.PpmMemoryRead
import Verif.Props.PpmDemo

/-!
# C76 at work

Consequences of C76 and a model that learns one word.
-/

namespace Mozolm.Ppm
open XR
open scoped BigOperators

theorem Memory.Prob.unique {M : Memory} {alpha beta : ℝ} {V y : Nat} {c : List Int} {p q : ℝ} (h : M.Prob alpha beta V y c p) :
    M.Prob alpha beta V y c q → p = q := by
  induction h generalizing q with
  | nil =>
    intro h'
    cases h' with
    | nil => rfl
    | unseen h => exact absurd rfl h
    | seen h => exact absurd rfl h
  | @unseen c p hne h0 _ ih =>
    intro h'
    cases h' with
    | nil => exact absurd rfl hne
    | unseen _ _ h => exact ih h
    | seen _ hs h =>
      obtain ⟨z, hz, hp⟩ := hs
      rw [h0 z hz] at hp; omega
  | @seen c p hne hs _ ih =>
    intro h'
    cases h' with
    | nil => exact absurd rfl hne
    | unseen _ h0 _ =>
      obtain ⟨z, hz, hp⟩ := hs
      rw [h0 z hz] at hp; omega
    | seen _ _ h => rw [ih h]

/-- Does the call only ask? -/
def Call.Asks : Call → Prop
  | .ask _ => True
  | .score _ _ => True
  | _ => False

instance : DecidablePred Call.Asks := fun c => by cases c <;> unfold Call.Asks <;> infer_instance

theorem Memory.uses_filter (order V : Nat) (a : Alphabet) (calls : List Call) : ∀ M : Memory,
    M.uses order V a (calls.filter fun c => ¬ c.Asks) = M.uses order V a calls := by
  induction calls with
  | nil => intro M; rfl
  | cons c calls ih =>
    intro M
    by_cases hc : c.Asks
    · rw [List.filter_cons_of_neg (by simpa using hc), ih]
      have : M.use order V a c = M := by cases c <;> first | rfl | exact absurd hc (by simp [Call.Asks])
      show _ = (M.use order V a c).uses order V a calls
      rw [this]
    · rw [List.filter_cons_of_pos (by simpa using hc)]
      exact ih (M.use order V a c)

theorem Memory.Norm.unique {M : Memory} {alpha : ℝ} {V : Nat} {c : List Int} {p q : ℝ} (h : M.Norm alpha V c p) :
    M.Norm alpha V c q → p = q := by
  induction h generalizing q with
  | nil =>
    intro h'
    cases h' with
    | nil => rfl
    | unseen h => exact absurd rfl h
    | seen h => exact absurd rfl h
  | @unseen c p hne h0 _ ih =>
    intro h'
    cases h' with
    | nil => exact absurd rfl hne
    | unseen _ _ h => exact ih h
    | seen _ hs =>
      obtain ⟨z, hz, hp⟩ := hs
      rw [h0 z hz] at hp; omega
  | @seen c hne hs =>
    intro h'
    cases h' with
    | nil => rfl
    | unseen _ h0 _ =>
      obtain ⟨z, hz, hp⟩ := hs
      rw [h0 z hz] at hp; omega
    | seen _ _ => rfl

/-- what a model answers is determined by the memory -/
theorem Answers.unique {o : Options XR} {encode : Int → Str} {symbols : SymbolTable} {V : Nat} {M : Memory}
    {m m' : Model Arith.xr} (h : Answers o encode symbols V M m) (h' : Answers o encode symbols V M m') (text : List Int) :
    ∃ (r : LMScores XR) (n : Model Arith.xr) (n' : Model Arith.xr), (Call.ask text).run encode m = .ok (.scores (some r), n) ∧
      (Call.ask text).run encode m' = .ok (.scores (some r), n') := by
  obtain ⟨p, h1, _, ⟨⟨s1, s2, s3⟩, n, h2, h3, h4, N, h5, _, h6⟩, _⟩ := h text
  obtain ⟨q, k1, _, ⟨⟨t1, t2, t3⟩, n', k2, k3, k4, N', k5, _, k6⟩, _⟩ := h' text
  have hN := h6.unique k6
  subst hN
  simp only at h3 k3 h4 k4 h5 k5
  subst h3 k3 h5 k5
  have hpq : s2 = t2 := by
    rw [h4, k4]
    refine List.map_congr_left fun y hy => ?_
    rw [List.mem_range] at hy
    rw [(h1 y (by omega)).2.unique (k1 y (by omega)).2]
  subst hpq
  exact ⟨_, n, n', h2, k2⟩

/-- **C76** Asking leaves no trace: two histories with the same teaching calls in the same order give the same answers
afterwards, whatever was asked in between. -/
theorem C76_asking {o : Options XR} (ha : o.alpha ≠ .nan) (hb : o.beta ≠ .nan) (hs : o.static = false) {m0 : Model Arith.xr}
    (hi : Initial Arith.xr OkR o m0) (ht : Totals m0.core.fst m0.chars) {K : Nat} {M0 : Memory} {ctxs : List (List Int)}
    (h0 : Holds K m0.chars M0 ctxs m0.core.fst) (hg : M0.Grounded K m0.chars) (hK : m0.core.maxOrder = K) (h2 : 2 ≤ K)
    (encode : Int → Str) {calls calls' : List Call}
    (he : (calls.filter fun c => ¬ c.Asks) = calls'.filter fun c => ¬ c.Asks) :
    ∃ (as as' : List (Answer Arith.xr)) (m m' : Model Arith.xr), runCalls encode calls m0 = .ok (as, m) ∧
      runCalls encode calls' m0 = .ok (as', m') ∧
      ∀ text, ∃ (r : LMScores XR) (n : Model Arith.xr) (n' : Model Arith.xr),
        (Call.ask text).run encode m = .ok (.scores (some r), n) ∧
        (Call.ask text).run encode m' = .ok (.scores (some r), n') := by
  obtain ⟨as, m, k1, k2⟩ := C76_history ha hb hs hi ht h0 hg hK h2 encode calls
  obtain ⟨as', m', l1, l2⟩ := C76_history ha hb hs hi ht h0 hg hK h2 encode calls'
  refine ⟨as, as', m, m', k1, l1, fun text => ?_⟩
  rw [← Memory.uses_filter, he, Memory.uses_filter] at k2
  exact k2.unique l2 text

/-! ## A word learnt -/

namespace MemoryDemo
open Classical

/-- bigrams over `a` and `b`, nothing learnt yet -/
noncomputable def options : Options XR :=
  { maxOrder := 2, alpha := .fin (1/2), beta := .fin (3/4), static := false, maxCache := 0, modelIsFst := false }

/-- `a` is symbol 1, `b` is symbol 2 -/
def table : SymbolTable := epsilonTable ++ [(1, [97]), (2, [98])]

/-- the code points of `a` and `b` are 97 and 98 -/
def letters : Alphabet := alphabet table Demo.enc

/-- after `a` -/
noncomputable def M1 : Memory := Memory.blank.observe 2 [0] 1
/-- after `ab` -/
noncomputable def M2 : Memory := M1.observe 2 [1] 2

theorem long {M : Memory} {a b : Int} (h1 : ¬ M.known [a, b]) (h2 : M.known [a]) : M.longest [a, b] = [a] := by
  show M.longestUpTo [a, b] 2 = _
  unfold Memory.longestUpTo
  rw [if_neg (by simpa using h1)]
  unfold Memory.longestUpTo
  rw [if_pos (by simpa using h2)]
  rfl

theorem M1_known {d : List Int} : M1.known d → d.length ≤ 1 := by
  rintro (h | ⟨_, e, _, rfl⟩)
  · rcases h with rfl | rfl <;> simp
  · simp

theorem M2_known {d : List Int} : M2.known d → d.length ≤ 1 := by
  rintro (h | ⟨_, e, _, rfl⟩)
  · exact M1_known h
  · simp

theorem M1_one : M1.known [1] := .inr ⟨by omega, [0], .self, rfl⟩

theorem learnt : Memory.blank.learn 2 letters 1 [0] [97, 98] = M2 := by
  have h1 : Memory.blank.learnOne 2 letters 1 [0] 97 = (M1, [1]) := by
    unfold Memory.learnOne
    show (M1, M1.longest [1, 0]) = _
    rw [long (fun h => by simpa using M1_known h) M1_one]
  show Memory.learn 2 letters 1 (Memory.blank.learnOne 2 letters 1 [0] 97).1 (Memory.blank.learnOne 2 letters 1 [0] 97).2 [98] = _
  rw [h1]
  rfl

theorem M1_counts : M1.count [1] 2 = 0 ∧ M1.count [1] 1 = 0 ∧ M1.count [1] 0 = 0 ∧ M1.count [] 0 = 1 ∧ M1.count [] 1 = 2 ∧ M1.count [] 2 = 1 := by
  have h1 : ¬ Memory.blank.Counted [0] 1 [1] := fun h => by
    obtain ⟨t, ht⟩ := h.1
    simp at ht
  have h2 : Memory.blank.Counted [0] 1 [] := by
    refine ⟨List.nil_prefix, fun e _ he hne => ?_⟩
    simp [Memory.blank, hne]
  have h3 : ∀ y, Memory.blank.count [1] y = 0 := fun _ => rfl
  have h4 : ∀ y, Memory.blank.count [] y = 1 := fun _ => rfl
  refine ⟨?_, ?_, ?_, ?_, ?_, ?_⟩ <;> simp [M1, Memory.observe, h1, h2, h3, h4]

theorem M2_counts : M2.count [1] 2 = 1 ∧ M2.count [1] 1 = 0 ∧ M2.count [1] 0 = 0 ∧ M2.count [] 0 = 1 ∧ M2.count [] 1 = 2 ∧ M2.count [] 2 = 2 := by
  obtain ⟨c1, c2, c3, c4, c5, c6⟩ := M1_counts
  have h1 : M1.Counted [1] 2 [1] := .self
  have h2 : M1.Counted [1] 2 [] := by
    refine ⟨List.nil_prefix, fun e _ he hne => ?_⟩
    have : e = [1] := by
      obtain ⟨t, ht⟩ := he
      match e, hne with
      | [x], _ => simp at ht; rw [ht.1]
      | x :: y :: e, _ => simp at ht
    rw [this]; exact c1
  refine ⟨?_, ?_, ?_, ?_, ?_, ?_⟩ <;> simp [M2, Memory.observe, h1, h2, c1, c2, c3, c4, c5, c6]

/-- `b` has probability one half after `a` -/
theorem half : M2.Prob (1/2) (3/4) 2 2 [1] (1/2) := by
  obtain ⟨c1, c2, c3, c4, c5, c6⟩ := M2_counts
  have h := Memory.Prob.seen (M := M2) (alpha := 1/2) (beta := 3/4) (V := 2) (y := 2) (c := [1]) (by simp) ⟨2, by omega, by simp [c1]⟩ .nil
  convert h using 1
  have hf : ((Finset.range (2 + 1)).filter fun z : Nat => 0 < M2.count [1] (z : Int)) = {2} := by
    ext z
    rw [Finset.mem_filter, Finset.mem_range, Finset.mem_singleton]
    constructor
    · rintro ⟨hz, hp⟩
      match z, hz with
      | 0, _ => simp [c3] at hp
      | 1, _ => simp [c2] at hp
      | 2, _ => rfl
    · rintro rfl
      exact ⟨by omega, by simp [c1]⟩
  rw [hf]
  simp only [Finset.sum_range_succ, Finset.sum_range_zero, Nat.cast_zero, Nat.cast_one, Nat.cast_ofNat,
    c1, c2, c3, c4, c5, c6, Finset.card_singleton]
  norm_num

theorem symbols {o : Options XR} {m : Model Arith.xr} (h1 : read Arith.xr o .none (some (some Demo.vocab)) = pure m) :
    m.symbols = table := by
  unfold read at h1
  obtain ⟨r, e1, h1⟩ := Res.bind_eq.mp h1
  obtain ⟨r2, e2, h1⟩ := Res.bind_eq.mp h1
  obtain ⟨c, e3, h1⟩ := Res.bind_eq.mp h1
  have hr : r = (makeEmpty Arith.xr, epsilonTable) := (Res.pure_inj e1).symm
  subst hr
  have hr2 : r2.2 = table := by
    have := Res.pure_inj (e2.symm.trans (by rfl : readVocab Arith.xr .none (some (some Demo.vocab))
      (makeEmpty Arith.xr, epsilonTable) = pure _))
    rw [this]; rfl
  have hm := Res.pure_inj h1
  rw [← hm]
  rfl

/-- A model of the letters that is taught `ab` once expects `b` after `a` with probability one half. -/
example : ∃ (m0 m m' : Model Arith.xr) (as : List (Answer Arith.xr)) (r : LMScores XR),
    read Arith.xr options .none (some (some Demo.vocab)) = pure m0 ∧
    runCalls Demo.enc [.learn [] [97, 98] 1] m0 = .ok (as, m) ∧
    (Call.ask [97]).run Demo.enc m = .ok (.scores (some r), m') ∧ r.symbols = [[], [97], [98]] ∧ r.probs[2]? = some (.fin (1/2)) := by
  obtain ⟨m0, h1, _, h2⟩ := C76_vocabulary (o := options) (order := 2) (by simp [options]) (by simp [options]) rfl (by simp [options])
    (ls := Demo.vocab) ⟨[97], by decide, by decide⟩ Demo.enc
  obtain ⟨as, m, k1, k2⟩ := h2 [.learn [] [97, 98] 1]
  have hsym := symbols h1
  have hch : m0.chars = 2 := by unfold Model.chars; rw [hsym]; rfl
  rw [hsym, hch] at k2
  have hM : Memory.blank.uses 2 2 (alphabet table Demo.enc) [.learn [] [97, 98] 1] = M2 := by
    rw [← learnt]
    show (if (0 : Int) < 1 then Memory.blank.learn 2 letters 1 (Memory.blank.longest [0]) [97, 98] else Memory.blank) = _
    rw [if_pos (by omega), Memory.longest_self (M := Memory.blank) (Or.inl rfl) (Or.inr rfl)]
  rw [hM] at k2
  obtain ⟨p, l1, _, ⟨r, m', l2, l3, l4, _⟩, _⟩ := k2 [97]
  refine ⟨m0, m, m', as, r, h1, k1, l2, l3, ?_⟩
  have hl : M2.longest ((alphabet table Demo.enc).past [97]) = [1] :=
    long (fun h => by simpa using M2_known h) (.inl M1_one)
  have hp := (l1 2 (by omega)).2
  rw [hl, show effective options.alpha (1/2) = 1/2 from if_pos (by norm_num), show effective options.beta (3/4) = 3/4 from if_pos (by norm_num)] at hp
  rw [l4]
  show some (XR.fin (p 2)) = _
  rw [hp.unique half]

/-- C76 with a trained model -/
example : ∃ m0 : Model Arith.xr, readText TrainDemo.countNGrams options (some TrainDemo.text) none = pure m0 ∧
    ∀ calls : List Call, ∃ (as : List (Answer Arith.xr)) (m : Model Arith.xr), runCalls Demo.enc calls m0 = .ok (as, m) ∧
      Answers options Demo.enc m0.symbols m0.chars
        ((Memory.ofText 2 (labelLines m0.symbols TrainDemo.text)).uses 2 m0.chars (alphabet m0.symbols Demo.enc) calls) m := by
  obtain ⟨m0, h1, _, h2⟩ := C76_text (o := options) (order := 2) (lines := TrainDemo.text) TrainDemo.countNGrams_ok
    (by simp [options]) (by simp [options]) rfl (by simp [options]) (by omega) ⟨[[97], [98]], by simp [TrainDemo.text], by simp⟩
    (by simp [TrainDemo.text, epsilonName]) (vocab := none) (by simp) Demo.enc
  exact ⟨m0, h1, h2⟩

end MemoryDemo
end Mozolm.Ppm
