import Verif.Props.Voices
import Verif.System.Live
import Verif.Bigram.ThreadLemmas

/-! # Adaptive models stay adaptive -/

namespace Mozolm.System
open Mozolm.Hub

variable {encode : Int → Str} {fuel : Nat}

/-- A bigram or PPM model, read and then used. -/
def Versed (encode : Int → Str) : Component Arith.xr → Prop
  | .bigram m => Bigram.Reachable m
  | .ppm m => ∃ (o : Ppm.Options XR) (m0 : Ppm.Model Arith.xr) (tr : List (Ppm.Op × Ppm.Answer Arith.xr)), o.alpha ≠ .nan ∧ o.beta ≠ .nan ∧
      Ppm.Initial Arith.xr Ppm.OkR o m0 ∧ Ppm.Totals m0.core.fst m0.chars ∧ Ppm.Run encode m0 tr m
  | .overflow => True
  | _ => False

theorem Adaptive.versed {m : Component Arith.xr} (h : Adaptive m) : Versed encode m := by
  cases h with
  | bigram h => exact ⟨_, _, _, [], h, rfl⟩
  | ppm ha hb hi ht => exact ⟨_, _, [], ha, hb, hi, ht, .nil⟩

theorem Versed.step {m m' : Ppm.Model Arith.xr} (h : Versed encode (.ppm m)) {op : Ppm.Op} {a : Ppm.Answer Arith.xr} (hv : op.Valid m)
    (he : Ppm.step encode op m = .ok (a, m')) : Versed encode (.ppm m') := by
  obtain ⟨o, m0, tr, h1, h2, h3, h4, h5⟩ := h
  exact ⟨o, m0, _, h1, h2, h3, h4, h5.append (.cons hv he .nil)⟩

theorem versed_closedOn (encode : Int → Str) (fuel : Nat) :
    (ops Arith.xr encode fuel).ClosedOn (fun m => live encode fuel m ∧ Versed encode m) ok where
  start m h := (closedOn Arith.xr encode fuel).start m h.1
  next m s c h := (closedOn Arith.xr encode fuel).next m s c h.1
  keep_next m s c x h := (closedOn Arith.xr encode fuel).keep_next m s c x h.1
  keep_extract m s x h := (closedOn Arith.xr encode fuel).keep_extract m s x h.1
  keep_score m s c x h := (closedOn Arith.xr encode fuel).keep_score m s c x h.1
  keep_update m s cs n x h := (closedOn Arith.xr encode fuel).keep_update m s cs n x h.1
  live_next m s c h hs := by
    refine ⟨(closedOn Arith.xr encode fuel).live_next m s c h.1 hs, ?_⟩
    obtain ⟨hl, h⟩ := h
    cases m with
    | ppm m =>
      obtain ⟨_, _, _, _, hi⟩ := hl
      obtain ⟨t, m', e, -⟩ := ppm_next hi encode c hs.1 hs.2
      obtain ⟨s, rfl⟩ : ∃ n : Nat, s = n := ⟨_, toNat_eq hs.1⟩
      simp only [ops, next, e, settle]
      exact h.step (op := .next s c) (a := .state t) (Int.ofNat_lt.1 hs.2) (by simp only [Ppm.step, Ppm.wrap, e])
    | bigram m => exact h
    | overflow => trivial
    | _ => exact h.elim
  live_extract m s h hs := by
    refine ⟨(closedOn Arith.xr encode fuel).live_extract m s h.1 hs, ?_⟩
    obtain ⟨hl, h⟩ := h
    cases m with
    | bigram m =>
      obtain ⟨r, e, _⟩ := bigram_extract hl Arith.xr encode s
      simp only [ops, extract, e, settle]
      exact h
    | ppm m =>
      obtain ⟨_, _, _, _, hi⟩ := hl
      obtain ⟨r, m', e, -⟩ := ppm_extract hi hs.1 hs.2
      obtain ⟨s, rfl⟩ : ∃ n : Nat, s = n := ⟨_, toNat_eq hs.1⟩
      simp only [ops, extract, e, settle]
      exact h.step (op := .scores s) (a := .scores (some r)) (Int.ofNat_lt.1 hs.2) (by simp only [Ppm.step, Ppm.wrap, e])
    | overflow => trivial
    | _ => exact h.elim
  live_score m s c h hs := by
    refine ⟨(closedOn Arith.xr encode fuel).live_score m s c h.1 hs, ?_⟩
    obtain ⟨hl, h⟩ := h
    cases m with
    | bigram m =>
      obtain ⟨r, e⟩ := bigram_score hl Arith.xr s c
      simp only [ops, symScore, e, settle]
      exact h
    | ppm m =>
      obtain ⟨_, _, _, _, hi⟩ := hl
      obtain ⟨w, m', e, -⟩ := ppm_score hi encode c hs.1 hs.2
      obtain ⟨s, rfl⟩ : ∃ n : Nat, s = n := ⟨_, toNat_eq hs.1⟩
      simp only [ops, symScore, e, settle]
      exact h.step (op := .score s c) (a := .cost w) (Int.ofNat_lt.1 hs.2) (by simp only [Ppm.step, Ppm.wrap, e])
    | overflow => trivial
    | _ => exact h.elim
  live_update m s cs n h hs := by
    refine ⟨(closedOn Arith.xr encode fuel).live_update m s cs n h.1 hs, ?_⟩
    obtain ⟨hl, h⟩ := h
    cases m with
    | bigram m =>
      rcases bigram_update hl s cs n with ⟨m', e, e1⟩ | ⟨f, e, e1⟩
      · simp only [ops, update, e]
        obtain ⟨v, c, m0, us, h1, h2⟩ := h
        exact ⟨v, c, m0, us ++ [⟨s, cs, n⟩], h1, by rw [Bigram.Threads.run_append h2]; simp only [Bigram.run, e, ok_bind]⟩
      · simp only [ops, update, e, e1]; trivial
    | ppm m =>
      obtain ⟨_, _, _, _, hi⟩ := hl
      obtain ⟨m', ord', e, -⟩ := ppm_update hi encode cs n hs.1 hs.2
      obtain ⟨s, rfl⟩ : ∃ n : Nat, s = n := ⟨_, toNat_eq hs.1⟩
      simp only [ops, update, e, settle]
      exact h.step (op := .update s cs n) (a := .ok true) (Int.ofNat_lt.1 hs.2) (by simp only [Ppm.step, Ppm.wrap, e])
    | overflow => trivial
    | _ => exact h.elim

/-- What such a model says is a distribution. -/
theorem Versed.says {m : Component Arith.xr} (h : Versed encode m) {s : Int} (hs : ok m s) {r : LMScores XR} (he : (extract encode fuel m s).1 = some r) :
    ∃ (es : List (Str × ℝ)) (nrm : XR), (∀ e ∈ es, 0 < e.2) ∧ (es.map Prod.snd).sum = 1 ∧ r = ⟨es.map Prod.fst, es.map fun e => XR.fin e.2, nrm⟩ := by
  have hsay : Sayable encode fuel m s := by
    cases m with
    | bigram m => exact sayable_bigram h s
    | ppm m =>
      obtain ⟨o, m0, tr, h1, h2, h3, h4, h5⟩ := h
      obtain ⟨s, rfl⟩ : ∃ n : Nat, s = n := ⟨_, toNat_eq hs.1⟩
      exact sayable_ppm h1 h2 h3 h4 h5 (Int.ofNat_lt.1 hs.2)
    | overflow => simp [extract] at he
    | _ => exact h.elim
  obtain ⟨_, es, nrm, h1, h2, h3⟩ := hsay
  exact ⟨es, nrm, h1, h2, by rw [h3] at he; exact (Option.some.inj he).symm⟩

end Mozolm.System
