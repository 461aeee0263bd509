import Verif.Props.RoundingBigram
import Verif.Props.RoundingBayes
import Verif.Binary64

/-! # C88: the hypotheses are met -/

namespace Mozolm.System
open XR Real

/-- `F`: plain numbers with 53 bits, costs in multiples of `2 ^ -40`; no flags. -/
noncomputable abbrev roundF40 := fixed64 40

set_option maxRecDepth 20000 in
theorem demo_bigram : ∃ b, Bigram.read .absent .absent = .ok (some b) ∧ b.utf8 ≠ [] := ⟨_, rfl, by simp [Bigram.defaultVocab]⟩

/-- C88_counts: options with `β = 3/10` in binary64 arithmetic with costs up to `2 ^ 10`. -/
example : ((2 : ℝ) ^ ((10 : Int) - 53)) ≤ 1 / 100 ∧ ((2 : ℝ) ^ (-53 : Int)) ≤ 1 / 100 ∧
    Ppm.CountLaws (binary64 10).arith CountNear
      (Ppm.initParameters (binary64 10).arith ⟨3, .fin (1 / 4), .fin (3 / 10), false, 0, false⟩).beta := by
  have h1 : ((2 : ℝ) ^ ((10 : Int) - 53)) ≤ 1 / 100 := by norm_num
  have h2 : ((2 : ℝ) ^ (-53 : Int)) ≤ 1 / 100 := by norm_num
  exact ⟨h1, h2, C88_counts _ h1 h2 (β := 3 / 10) rfl (by norm_num) (by norm_num)⟩

/-- C88_server: a bigram model and a PPM model read from a vocabulary, in that arithmetic. -/
example : ∃ models : List (Component (binary64 10).arith), models.length = 2 ∧ (∀ m ∈ models, Served demoEncode m) := by
  have h1 : ((2 : ℝ) ^ ((10 : Int) - 53)) ≤ 1 / 100 := by norm_num
  have h2 : ((2 : ℝ) ^ (-53 : Int)) ≤ 1 / 100 := by norm_num
  have L := C88_counts (binary64 10) h1 h2 (o := ⟨3, .fin (1 / 4), .fin (3 / 10), false, 0, false⟩) (β := 3 / 10) rfl
    (by norm_num) (by norm_num)
  obtain ⟨p, _, _, hp, _⟩ := Ppm.read_vocab_ok (A := (binary64 10).arith) L Ppm.Demo.vocab_ok
  obtain ⟨b, hb, _⟩ := demo_bigram
  refine ⟨[.bigram b, .ppm p], rfl, fun m hm => ?_⟩
  simp only [List.mem_cons, List.not_mem_nil, or_false] at hm
  rcases hm with rfl | rfl
  · exact .bigram hb
  · exact .ppm L (.vocabulary Ppm.Demo.vocab_ok hp)

/-- an injective stand-in for `EncodeUnicodeChar` -/
def demoEncode' : Int → Str := fun c => if c < 0 then [(-c).toNat, 0] else [c.toNat]

theorem demoEncode'_inj (a b : Int) (h : demoEncode' a = demoEncode' b) : a = b := by
  unfold demoEncode' at h
  split at h <;> split at h <;> simp at h <;> omega

/-- C88_bigrams and C88_server: two bigram models; a reply without flags. -/
example : ∃ (models : List (Component roundF40.arith)) (fuel : Nat) (cfg : Hub.HubConfig XR)
    (h h' : Hub.Hub roundF40.arith (Component roundF40.arith)) (bs : List Bigram.Model) (st : Hub.HubState XR) (r : LMScores XR),
    (∀ m ∈ models, Served demoEncode' m) ∧ cfg.weights = [0, log 2].map XR.fin ∧ models.length = 2 ∧
    Server.Reach (env roundF40.arith demoEncode' fuel id id) models cfg [] h ∧
    h.models = bs.map .bigram ∧ h.valid 0 = true ∧ h.states[(0 : Int).toNat]? = some st ∧
    Server.getLMScores (env roundF40.arith demoEncode' fuel id id) h [] 0 = .ok (.ok r, h') ∧ r.probs ≠ [] ∧
    ∀ p ∈ r.probs, p ≠ XR.nan := by
  obtain ⟨b, hb, hb2⟩ := demo_bigram
  have hs : ∀ m ∈ [Component.bigram (A := roundF40.arith) b, .bigram b], Served demoEncode' m := fun m hm => by
    simp only [List.mem_cons, List.not_mem_nil, or_false, or_self] at hm
    rw [hm]; exact .bigram hb
  have hε : (0 : ℝ) ≤ (1 / 2 : ℝ) ^ (40 + 1) := by positivity
  have h1 : ((2 : ℝ) ^ (-53 : Int)) < 1 := by norm_num
  obtain ⟨fuel, hf⟩ := C88_bigrams hε h1 hs demoEncode'_inj
  let cfg : Hub.HubConfig XR :=
    { mixture := .interpolation, weights := [.fin 0, .fin (log 2)], bayesianHistoryLength := 0, maxStates := 20 }
  have hfair : (env roundF40.arith demoEncode' fuel id id).Fair := ⟨fun _ => .refl _, fun _ => .refl _⟩
  obtain ⟨h0, e0, em⟩ : ∃ h0, Hub.initializeModels (env roundF40.arith demoEncode' fuel id id) [.bigram b, .bigram b] cfg = .ok (some h0) ∧
      h0.models = [.bigram b, .bigram b] :=
    ⟨_, by rw [Hub.initialize_eq hfair, if_neg (by simp [cfg])], rfl⟩
  have hr : Hub.Reach (env roundF40.arith demoEncode' fuel id id) [.bigram b, .bigram b] cfg [] h0 := ⟨h0, e0, rfl⟩
  have hpos := (Hub.reach_good hfair hr).inv.pos
  obtain ⟨st, hst⟩ := exists_getElem?_of_lt hpos
  have hv : h0.valid 0 = true := by rw [Server.valid_iff]; omega
  obtain ⟨rows, res, h', _, _, e1, e2, e3, e4, e5⟩ := hf fuel (Nat.le_refl _) id id hfair cfg [] h0 [0, log 2] rfl rfl (by simp) (by simp)
    (by decide) hr [b, b] em 0 st hv hst
  refine ⟨_, fuel, cfg, h0, h', [b, b], st, res, hs, rfl, rfl, ⟨h0, e0, rfl⟩, em, hv, hst, ?_, ?_, ?_⟩
  · have : Hub.contextState (env roundF40.arith demoEncode' fuel id id) h0 [] (Server.toInt32 0) = .ok (0, h0) := rfl
    simp only [Server.getLMScores, this, ok_bind, e1]
  · intro he
    rw [he] at e4
    obtain ⟨u, hu⟩ := List.exists_mem_of_ne_nil _ hb2
    have := (e3 _).2 ⟨b, by simp, u, hu, rfl⟩
    rw [List.length_eq_zero_iff.1 e4.symm] at this
    cases this
  · intro p hp hn
    obtain ⟨i, hi⟩ := List.mem_iff_getElem?.1 hp
    obtain ⟨sym, hsy⟩ := exists_getElem?_of_lt (l := res.symbols) (i := i) (by have := lt_of_getElem?_eq_some hi; omega)
    exact (e5 i sym p hsy hi).flag hn

end Mozolm.System

namespace Mozolm.Hub
open XR

/-- a component that gives `a` the probability 1/4 and anything else 3/4, with rounded costs -/
noncomputable def roughQuarter : Env (fixed64 40).arith Unit where
  start _ := 0
  next _ s _ := (s + 1, ())
  extract _ _ := (some ⟨[[97], [98]], [XR.fin (1/4), XR.fin (3/4)], XR.fin 1⟩, ())
  symScore _ _ c := ((fixed64 40).cost (.fin (if c = 97 then 1/4 else 3/4)), ())
  update _ _ _ _ := (true, ())
  orderN := id
  orderV := id

/-- C88_bayes: a context of two symbols and history length two. -/
example : ∃ (h h' : Hub (fixed64 40).arith Unit) (r : Int), roughQuarter.Fair ∧
    roughQuarter.toLMOps.Static (fun _ s _ => s + 1) (fun _ _ c => (fixed64 40).cost (.fin (if c = 97 then 1/4 else 3/4))) ∧
    (∀ (_ : Unit) (_ c : Int), CostNear False ((1 / 2 : ℝ) ^ (40 + 1))
      ((fixed64 40).cost (.fin (if c = 97 then 1/4 else 3/4))) (if c = 97 then 1/4 else 3/4)) ∧
    Reach roughQuarter [(), ()] ⟨.interpolation, [XR.fin 0, XR.fin 0], 2, 100⟩ [] h ∧
    contextState roughQuarter h [97, 98] (-1) = .ok (r, h') ∧ h'.selfRecycled = false ∧
    0 < (([(0 : ℝ), 0].zip [(), ()]).map (bayesScore (fun _ s _ => s + 1)
      (fun _ _ c => if c = 97 then 1/4 else 3/4) roughQuarter.start 2 [97, 98])).sum := by
  refine ⟨_, _, _, ⟨fun _ => .refl _, fun _ => .refl _⟩, ⟨⟨fun _ _ _ => rfl, fun _ _ => rfl, fun _ _ _ => rfl, fun _ _ _ _ => rfl⟩, fun _ _ _ => rfl,
    fun _ _ _ => rfl, fun _ _ _ => rfl, fun _ _ => rfl, fun _ _ _ => rfl, fun _ _ _ _ => rfl,
    fun _ _ _ => rfl, fun _ _ => rfl, fun _ _ _ => rfl, fun _ _ _ _ => rfl⟩, ?_,
    ⟨_, rfl, rfl⟩, rfl, rfl, ?_⟩
  · intro _ _ c
    have hp : (0 : ℝ) ≤ if c = 97 then 1/4 else 3/4 := by split <;> norm_num
    have := ValueNear.cost (e := 0) (fixed64 40) hp (x := .fin (if c = 97 then 1/4 else 3/4))
      (.inr ⟨if c = 97 then 1/4 else 3/4, rfl, by simp, by simp⟩)
    rwa [zero_add] at this
  · simp [bayesScore, pathCosts, lastN]

end Mozolm.Hub
