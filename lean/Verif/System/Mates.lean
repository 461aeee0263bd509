import Verif.System.Trace
import Verif.Hub.Shadow

/-! # Components that give the same answers -/

namespace Mozolm.System
variable {A : Arith} {encode : Int → Str} {fuel : Nat}

/-- two copies of a component that were asked different things, but taught the same -/
inductive Mated (encode : Int → Str) (fuel : Nat) : Component A → Component A → Prop
  | bigram {m : Bigram.Model} : Bigram.WF m → Mated encode fuel (.bigram m) (.bigram m)
  | overflow : Mated encode fuel .overflow .overflow
  | char {m : NGram.Model A.C} : CharLive fuel m → Mated encode fuel (.char m) (.char m)
  | ppm {a b : Ppm.Model A} {Ok : A.C → Prop} {ord : Nat → Nat} {V u : Nat} : Ppm.Inv A Ok a ord V u → Ppm.Inv A Ok b ord V u → b.sig = a.sig →
      Mated encode fuel (.ppm a) (.ppm b)
  | word {a b m0 : Word.Model A.C} : WordLive encode fuel a m0 → WordLive encode fuel b m0 → Mated encode fuel (.word a) (.word b)

/-- states of two copies that stand for the same -/
def Matching (encode : Int → Str) (fuel : Nat) (a b : Component A) (x y : Int) : Prop :=
  ok a x ∧ ok b y ∧ (Plain a → x = y) ∧ (¬ Plain a → ∃ p, den encode fuel a x p ∧ den encode fuel b y p)

theorem Mated.refl {m : Component A} (h : live encode fuel m) : Mated encode fuel m m := by
  cases m with
  | bigram m => exact .bigram h
  | ppm m => obtain ⟨_, _, _, _, h⟩ := h; exact .ppm h h rfl
  | char m => exact .char h
  | word m => obtain ⟨m0, h⟩ := h; exact .word h h
  | overflow => exact .overflow
  | crashed f => exact absurd h id

theorem Mated.live {a b : Component A} (h : Mated encode fuel a b) : live encode fuel a ∧ live encode fuel b := by
  cases h with
  | bigram h => exact ⟨h, h⟩
  | overflow => exact ⟨trivial, trivial⟩
  | char h => exact ⟨h, h⟩
  | ppm h1 h2 => exact ⟨⟨_, _, _, _, h1⟩, ⟨_, _, _, _, h2⟩⟩
  | word h1 h2 => exact ⟨⟨_, h1⟩, ⟨_, h2⟩⟩

/-- states go on matching when the answers stay the same -/
theorem Matching.kept {a b a' b' : Component A} (hp : Plain a ↔ Plain a') (ha : ∀ x, ok a x → ok a' x) (hb : ∀ x, ok b x → ok b' x)
    (ka : ∀ x p, ok a x → den encode fuel a x p → den encode fuel a' x p) (kb : ∀ x p, ok b x → den encode fuel b x p → den encode fuel b' x p)
    {u v : Int} (h : Matching encode fuel a b u v) : Matching encode fuel a' b' u v := by
  obtain ⟨h1, h2, h3, h4⟩ := h
  refine ⟨ha _ h1, hb _ h2, fun q => h3 (hp.2 q), fun q => ?_⟩
  obtain ⟨p, d1, d2⟩ := h4 (fun x => q (hp.1 x))
  exact ⟨p, ka _ _ h1 d1, kb _ _ h2 d2⟩

/-- the same for components other than the word model -/
theorem Matching.plain {a b a' b' : Component A} (hp : Plain a) (hp' : Plain a') (ha : ∀ x, ok a x → ok a' x) (hb : ∀ x, ok b x → ok b' x)
    {u v : Int} (h : Matching encode fuel a b u v) : Matching encode fuel a' b' u v :=
  ⟨ha _ h.1, hb _ h.2.1, fun _ => h.2.2.1 hp, fun q => absurd hp' q⟩

theorem plain_next {m : Component A} (h : live encode fuel m) {s : Int} (hs : ok m s) (c : Int) : Plain m ↔ Plain (next encode fuel m s c).2 := by
  constructor
  · intro hp; exact (alike_next hp h hs c).1
  · intro hp
    cases m with
    | word m =>
      obtain ⟨m0, h⟩ := h
      obtain ⟨r, I, e, -⟩ := h.next hs.1 c
      simp only [next, e, settle] at hp
      exact hp
    | _ => trivial

theorem plain_extract {m : Component A} (h : live encode fuel m) {s : Int} (hs : ok m s) : Plain m ↔ Plain (extract encode fuel m s).2 := by
  constructor
  · intro hp; exact (alike_extract hp h hs).1
  · intro hp
    cases m with
    | word m =>
      obtain ⟨m0, h⟩ := h
      obtain ⟨r, c, e, -⟩ := h.extract hs.1
      simp only [extract, e, settle] at hp
      exact hp
    | _ => trivial

theorem plain_score {m : Component A} (h : live encode fuel m) {s : Int} (hs : ok m s) (c : Int) : Plain m ↔ Plain (symScore encode fuel m s c).2 := by
  constructor
  · intro hp; exact (alike_score hp h hs c).1
  · intro hp
    cases m with
    | word m =>
      obtain ⟨m0, h⟩ := h
      obtain ⟨x, d, e, -⟩ := h.score hs.1 c
      simp only [symScore, e, settle] at hp
      exact hp
    | _ => trivial

theorem Mated.next {a b : Component A} (h : Mated encode fuel a b) {x y : Int} (hx : Matching encode fuel a b x y) (c : Int) (hc : 0 ≤ c) :
    Mated encode fuel (next encode fuel a x c).2 (next encode fuel b y c).2 ∧
    Matching encode fuel (System.next encode fuel a x c).2 (System.next encode fuel b y c).2 (System.next encode fuel a x c).1 (System.next encode fuel b y c).1 := by
  obtain ⟨la, lb⟩ := h.live
  obtain ⟨h1, h2, h3, h4⟩ := hx
  have C := closedOn A encode fuel
  have o1 : ok (System.next encode fuel a x c).2 (System.next encode fuel a x c).1 := C.next a x c la h1
  have o2 : ok (System.next encode fuel b y c).2 (System.next encode fuel b y c).1 := C.next b y c lb h2
  have main : Mated encode fuel (System.next encode fuel a x c).2 (System.next encode fuel b y c).2 ∧
      (Plain a → (System.next encode fuel a x c).1 = (System.next encode fuel b y c).1) := by
    cases h with
    | bigram h => cases h3 trivial; exact ⟨.refl (C.live_next _ _ _ la h1), fun _ => rfl⟩
    | overflow => cases h3 trivial; exact ⟨.refl (C.live_next _ _ _ la h1), fun _ => rfl⟩
    | char h => cases h3 trivial; exact ⟨.refl (C.live_next _ _ _ la h1), fun _ => rfl⟩
    | @ppm a b Ok ord V u i1 i2 hs =>
      cases h3 trivial
      obtain ⟨s, rfl⟩ : ∃ n : Nat, x = n := ⟨_, toNat_eq h1.1⟩
      obtain ⟨t, _, ht, hq⟩ := Ppm.nextState_query (g := a.sig) i1.laws i1.wf i1.labels encode c (s := s) (by simpa [Ppm.Model.sig] using h1.2)
      obtain ⟨m1, e1, e2, e3⟩ := hq a rfl i1.cache
      obtain ⟨m2, f1, f2, f3⟩ := hq b hs i2.cache
      simp only [System.next, e1, f1, settle]
      refine ⟨.ppm (i1.after (h := []) (by rw [e2.core]; exact .nil) e2.params e3) (i2.after (h := []) (by rw [f2.core]; exact .nil) f2.params f3) ?_, fun _ => trivial⟩
      rw [e2.sig, f2.sig, hs]
    | word w1 w2 =>
      obtain ⟨r, I, e, _, _, _, e1⟩ := w1.next h1.1 c
      obtain ⟨r', I', f, _, _, _, f1⟩ := w2.next h2.1 c
      simp only [System.next, e, f, settle]
      exact ⟨.word e1 f1, fun q => absurd q id⟩
  refine ⟨main.1, o1, o2, fun q => main.2 ((plain_next la h1 c).2 q), fun q => ?_⟩
  obtain ⟨p, d1, d2⟩ := h4 (fun z => q ((plain_next la h1 c).1 z))
  exact ⟨p ++ [c], trace_next a x c p la h1 d1 hc, trace_next b y c p lb h2 d2 hc⟩

theorem Mated.extract {a b : Component A} (h : Mated encode fuel a b) {x y : Int} (hx : Matching encode fuel a b x y) :
    (extract encode fuel a x).1 = (System.extract encode fuel b y).1 ∧ Mated encode fuel (System.extract encode fuel a x).2 b ∧
      Mated encode fuel a (System.extract encode fuel b y).2 := by
  obtain ⟨la, lb⟩ := h.live
  obtain ⟨h1, h2, h3, h4⟩ := hx
  cases h with
  | @bigram m h =>
    cases h3 trivial
    obtain ⟨r, e, _⟩ := bigram_extract h A encode x
    simp only [System.extract, e, settle]
    exact ⟨trivial, .bigram h, .bigram h⟩
  | overflow => cases h3 trivial; exact ⟨rfl, .overflow, .overflow⟩
  | char h =>
    cases h3 trivial
    obtain ⟨s, rfl⟩ : ∃ n : Nat, x = n := ⟨_, toNat_eq h1.1⟩
    obtain ⟨r, e, _⟩ := h.extract (s := s) (by have := h1.2; omega)
    simp only [System.extract, e, settle]
    exact ⟨trivial, .char h, .char h⟩
  | @ppm a b Ok ord V u i1 i2 hs =>
    cases h3 trivial
    obtain ⟨s, rfl⟩ : ∃ n : Nat, x = n := ⟨_, toNat_eq h1.1⟩
    have hs' : s < a.core.fst.states.length := by have := h1.2; omega
    obtain ⟨d, hd, hsz⟩ := i1.wf.ideal i1.laws a.alpha s hs'
    obtain ⟨r, hr, _, hp, hsy⟩ := Ppm.fill_ok hsz a.symbols
    have hq := Ppm.extract_query (g := a.sig) i1.laws i1.wf hs' hd hr
    obtain ⟨m1, e1, e2, e3⟩ := hq a rfl i1.cache
    obtain ⟨m2, f1, f2, f3⟩ := hq b hs i2.cache
    simp only [System.extract, e1, f1, settle]
    exact ⟨trivial, .ppm (i1.after (h := []) (by rw [e2.core]; exact .nil) e2.params e3) i2 (by rw [e2.sig, hs]),
      .ppm i1 (i2.after (h := []) (by rw [f2.core]; exact .nil) f2.params f3) (by rw [f2.sig, hs])⟩
  | @word a b m0 w1 w2 =>
    obtain ⟨p, d1, d2⟩ := h4 id
    have t1 := trace_extract _ x p la h1 d1
    have t2 := trace_extract _ y p lb h2 d2
    obtain ⟨r, I, e, _, e1⟩ := w1.extract h1.1
    obtain ⟨r', I', f, _, f1⟩ := w2.extract h2.1
    refine ⟨?_, ?_, ?_⟩
    · rw [t1, t2]
      show wordAns fuel a.static p = wordAns fuel b.static p
      rw [w1.same, w2.same]
    · simp only [System.extract, e, settle]
      exact .word e1 w2
    · simp only [System.extract, f, settle]
      exact .word w1 f1

theorem Mated.score {a b : Component A} (h : Mated encode fuel a b) {x y : Int} (hx : Matching encode fuel a b x y) (c : Int) :
    Mated encode fuel (symScore encode fuel a x c).2 b := by
  obtain ⟨la, lb⟩ := h.live
  obtain ⟨h1, h2, h3, h4⟩ := hx
  cases h with
  | @bigram m h =>
    obtain ⟨r, e⟩ := bigram_score h A x c
    simp only [symScore, e, settle]
    exact .bigram h
  | overflow => exact .overflow
  | @char m h =>
    obtain ⟨s, rfl⟩ : ∃ n : Nat, x = n := ⟨_, toNat_eq h1.1⟩
    obtain ⟨r, e⟩ := labelCost_total h.closed h.enough (s := s) (by have := h1.2; omega) (NGram.symLabel encode m c)
    have e : NGram.symLMScore encode fuel m s c = .ok r := e
    simp only [symScore, e, settle]
    exact .char h
  | @ppm a b Ok ord V u i1 i2 hs =>
    obtain ⟨s, rfl⟩ : ∃ n : Nat, x = n := ⟨_, toNat_eq h1.1⟩
    have hs' : s < a.core.fst.states.length := by have := h1.2; omega
    obtain ⟨d, hd, hsz⟩ := i1.wf.ideal i1.laws a.alpha s hs'
    obtain ⟨w, hw, _⟩ := Ppm.symLMScore_query (g := a.sig) i1.laws i1.wf i1.labels encode c hs' hd
    obtain ⟨m1, e1, e2, e3⟩ := hw a rfl i1.cache
    simp only [symScore, e1, settle]
    exact .ppm (i1.after (h := []) (by rw [e2.core]; exact .nil) e2.params e3) i2 (by rw [e2.sig, hs])
  | @word a b m0 w1 w2 =>
    obtain ⟨r, d, e, e1⟩ := w1.score h1.1 c
    simp only [symScore, e, settle]
    exact .word e1 w2

theorem Mated.update {a b : Component A} (h : Mated encode fuel a b) {x y : Int} (hx : Matching encode fuel a b x y) (cs : List Int) (n : Int) :
    Mated encode fuel (update encode a x cs n).2 (update encode b y cs n).2 ∧
      ∀ u v, Matching encode fuel a b u v → Matching encode fuel (System.update encode a x cs n).2 (System.update encode b y cs n).2 u v := by
  obtain ⟨la, lb⟩ := h.live
  obtain ⟨h1, h2, h3, h4⟩ := hx
  have C := closedOn A encode fuel
  have k1 : ∀ u, ok a u → ok (System.update encode a x cs n).2 u := fun u hu => C.keep_update a x cs n u la h1 hu
  have k2 : ∀ u, ok b u → ok (System.update encode b y cs n).2 u := fun u hu => C.keep_update b y cs n u lb h2 hu
  have l1 : System.live encode fuel (System.update encode a x cs n).2 := C.live_update a x cs n la h1
  cases h with
  | @bigram m h =>
    cases h3 trivial
    refine ⟨.refl l1, fun u v huv => Matching.plain (a := .bigram m) trivial ?_ k1 k2 huv⟩
    rcases bigram_update h x cs n with ⟨m', e, e1⟩ | ⟨f, e, e1⟩
    · simp only [System.update, e]; trivial
    · simp only [System.update, e, e1]; trivial
  | overflow => exact ⟨.overflow, fun u v h => h⟩
  | char h => exact ⟨.char h, fun u v h => h⟩
  | @ppm a b Ok ord V u i1 i2 hs =>
    cases h3 trivial
    obtain ⟨s, rfl⟩ : ∃ n : Nat, x = n := ⟨_, toNat_eq h1.1⟩
    have hs' : s < a.core.fst.states.length := by have := h1.2; omega
    obtain ⟨c', ord', l, hobs, _, heff⟩ := Ppm.updateLMCounts_effect (g := a.sig) i1.laws i1.wf i1.orders i1.labels encode hs' cs n
    obtain ⟨m1, e1, e2, e3, e4⟩ := heff a rfl i1.cache
    obtain ⟨m2, f1, f2, f3, f4⟩ := heff b hs i2.cache
    have q1 : (System.update encode (.ppm a) (s : Int) cs n).2 = .ppm m1 := by simp only [System.update, e1, settle]
    have q2 : (System.update encode (.ppm b) (s : Int) cs n).2 = .ppm m2 := by simp only [System.update, f1, settle]
    rw [q1] at k1
    rw [q2] at k2
    rw [q1, q2]
    refine ⟨.ppm (i1.after (by rw [e3]; exact hobs) e2 e4) (i2.after (by rw [f3, Ppm.sig_core hs]; exact hobs) f2 f4) ?_, fun u v huv => Matching.plain (a := .ppm a) (a' := .ppm m1) trivial trivial k1 k2 huv⟩
    rw [e2.sig, f2.sig, e3, f3, hs]
  | word w1 w2 => exact ⟨.word w1 w2, fun u v h => h⟩

/-- The component models are mates. -/
theorem mates (A : Arith) (encode : Int → Str) (fuel : Nat) : (ops A encode fuel).Mates (Mated encode fuel) (Matching encode fuel) where
  start {a b} h := by
    obtain ⟨la, lb⟩ := h.live
    refine ⟨(closedOn A encode fuel).start a la, (closedOn A encode fuel).start b lb, fun _ => ?_, fun _ => ⟨[], trace_start a la, trace_start b lb⟩⟩
    cases h with
    | @ppm a b Ok ord V u i1 i2 hs =>
      show (a.core.fst.start : Int) = b.core.fst.start
      rw [Ppm.sig_core hs]; rfl
    | word => contradiction
    | _ => rfl
  next {a b x y} c h hx hc := by
    obtain ⟨la, lb⟩ := h.live
    obtain ⟨m1, m2⟩ := h.next hx c hc
    refine ⟨m1, m2, fun u v huv => huv.kept (plain_next la hx.1 c) (fun z hz => (closedOn A encode fuel).keep_next a x c z la hx.1 hz)
      (fun z hz => (closedOn A encode fuel).keep_next b y c z lb hx.2.1 hz) (trace_kept_next a x c la hx.1).1 (trace_kept_next b y c lb hx.2.1).1⟩
  extract h hx := (h.extract hx).1
  left {a b x y} h hx := by
    obtain ⟨la, lb⟩ := h.live
    exact ⟨(h.extract hx).2.1, fun u v huv => huv.kept (plain_extract la hx.1) (fun z hz => (closedOn A encode fuel).keep_extract a x z la hx.1 hz)
      (fun z hz => hz) (trace_kept_extract a x la hx.1).1 (fun _ _ _ hd => hd)⟩
  right {a b x y} h hx := by
    obtain ⟨la, lb⟩ := h.live
    exact ⟨(h.extract hx).2.2, fun u v huv => huv.kept Iff.rfl (fun z hz => hz) (fun z hz => (closedOn A encode fuel).keep_extract b y z lb hx.2.1 hz)
      (fun _ _ _ hd => hd) (trace_kept_extract b y lb hx.2.1).1⟩
  score {a b x y} c h hx := by
    obtain ⟨la, lb⟩ := h.live
    exact ⟨h.score hx c, fun u v huv => huv.kept (plain_score la hx.1 c) (fun z hz => (closedOn A encode fuel).keep_score a x c z la hx.1 hz)
      (fun z hz => hz) (trace_kept_score a x c la hx.1).1 (fun _ _ _ hd => hd)⟩
  update {a b x y} cs n h hx := by
    obtain ⟨la, lb⟩ := h.live
    exact ⟨update_accepted la hx.1 cs n, update_accepted lb hx.2.1 cs n, h.update hx cs n⟩

end Mozolm.System
