import Verif.Props.WordChance
import Verif.Props.PairChanceDemo

/-! # C102 at work: the words "b", "ab" and "a" -/

namespace Mozolm.System.WordDemo
open Mozolm.Hub Mozolm.Server Mozolm.NGram Mozolm.Word XR PairsDemo

theorem ends_le : ∀ q e, EndProb demoFstR q e → e ≤ 1 := by
  intro q e h
  induction h with
  | @final q st p hst hp hf =>
    have hst := List.mem_of_getElem? hst
    simp only [demoFstR, List.mem_cons, List.not_mem_nil, or_false] at hst
    rcases hst with rfl | rfl | rfl
    · rw [← costOf_inj (by norm_num) hp.le hf]; norm_num
    · exact absurd (costOf_eq_pinf.1 hf.symm) hp.ne'
    · rw [← costOf_inj (by norm_num) hp.le hf]; norm_num
  | @back q t st b p hst hf hb hbo he ih =>
    obtain ⟨_, _, hb'⟩ := demoR_backoff hbo
    rw [costOf_inj hb (by norm_num) hb']
    linarith
  | none => norm_num

theorem bo1 : IsBackoff demoFstR 1 (costOf (1/2)) 0 := ⟨_, [], [⟨2, costOf (5/8), 2⟩], rfl, rfl, by simp⟩
theorem bo2 : IsBackoff demoFstR 2 (costOf (1/2)) 0 := ⟨_, [], [⟨3, costOf (1/4), 0⟩], rfl, rfl, by simp⟩

theorem no1 (l : Int) (h0 : l ≠ 0) (h2 : l ≠ 2) : NoArc demoFstR 1 l := by
  intro st hst a ha
  simp only [demoFstR, List.getElem?_cons_succ, List.getElem?_cons_zero, Option.some.injEq] at hst
  subst hst
  simp only [List.mem_cons, List.not_mem_nil, or_false] at ha
  rcases ha with rfl | rfl
  · exact fun h => h0 h.symm
  · exact fun h => h2 h.symm

theorem no2 (l : Int) (h0 : l ≠ 0) (h2 : l ≠ 3) : NoArc demoFstR 2 l := by
  intro st hst a ha
  simp only [demoFstR, List.getElem?_cons_succ, List.getElem?_cons_zero, Option.some.injEq] at hst
  subst hst
  simp only [List.mem_cons, List.not_mem_nil, or_false] at ha
  rcases ha with rfl | rfl
  · exact fun h => h0 h.symm
  · exact fun h => h2 h.symm

noncomputable def P1 : Int → ℝ := fun l => if l = 2 then 5/8 else 1/8
noncomputable def P2 : Int → ℝ := fun l => if l = 3 then 1/4 else 1/8

theorem end0 : EndProb demoFstR 0 (1/4) := .final rfl (by norm_num) rfl
theorem end2 : EndProb demoFstR 2 (1/2) := .final rfl (by norm_num) rfl

theorem uni1 : WordProb demoFstR 1 0 (1/4) := .arc (d := 0) (by norm_num) ⟨_, [], _, rfl, rfl, by simp⟩
theorem uni2 : WordProb demoFstR 2 0 (1/4) := .arc (d := 2) (by norm_num) ⟨_, [⟨1, costOf (1/4), 0⟩], _, rfl, rfl, by simp⟩
theorem uni3 : WordProb demoFstR 3 0 (1/4) := .arc (d := 0) (by norm_num) ⟨_, [⟨1, costOf (1/4), 0⟩, ⟨2, costOf (1/4), 2⟩], [], rfl, rfl, by simp⟩

theorem outlook1 : Outlook demoFstR demoVocab (-1) 1 P1 (1/8) := by
  refine ⟨fun l w hw => ?_, ?_⟩
  · rcases (demo_word l w).1 hw with ⟨rfl, _⟩ | ⟨rfl, _⟩ | ⟨rfl, _⟩
    · have := WordProb.back (no1 1 (by decide) (by decide)) (by norm_num) bo1 uni1
      norm_num [P1] at this ⊢
      exact this
    · have : WordProb demoFstR 2 1 (5/8) := .arc (d := 2) (by norm_num) ⟨_, [⟨0, costOf (1/2), 0⟩], [], rfl, rfl, by simp⟩
      simpa [P1] using this
    · have := WordProb.back (no1 3 (by decide) (by decide)) (by norm_num) bo1 uni3
      norm_num [P1] at this ⊢
      exact this
  · have := EndProb.back (f := demoFstR) (q := 1) rfl rfl (by norm_num) bo1 end0
    norm_num at this ⊢
    exact this

theorem outlook2 : Outlook demoFstR demoVocab (-1) 2 P2 (1/2) := by
  refine ⟨fun l w hw => ?_, end2⟩
  rcases (demo_word l w).1 hw with ⟨rfl, _⟩ | ⟨rfl, _⟩ | ⟨rfl, _⟩
  · have := WordProb.back (no2 1 (by decide) (by decide)) (by norm_num) bo2 uni1
    norm_num [P2] at this ⊢
    exact this
  · have := WordProb.back (no2 2 (by decide) (by decide)) (by norm_num) bo2 uni2
    norm_num [P2] at this ⊢
    exact this
  · have : WordProb demoFstR 3 2 (1/4) := .arc (d := 0) (by norm_num) ⟨_, [⟨0, costOf (1/2), 0⟩], [], rfl, rfl, by simp⟩
    simpa [P2] using this

theorem mass1 : mass demoVocab (-1) P1 [] = 7/8 := by simp [Word.mass, demoVocab, P1]; norm_num
theorem mass2 : mass demoVocab (-1) P2 [] = 1/2 := by simp [Word.mass, demoVocab, P2]; norm_num
theorem mass2a : mass demoVocab (-1) P2 [97] = 3/8 := by simp [Word.mass, demoVocab, P2]; norm_num

/-- An arc of the state itself. -/
theorem found_here {q : Nat} {l : Int} {w : XR} {d : Nat} (h : FirstArc demoFstR q l w d) : NGram.Found (A := Arith.xr) demoFstR q l [] w d := by
  refine ⟨q, .here q, h, ?_⟩
  intro ws ws' v h1 h2 hne
  exfalso
  obtain ⟨rank, hr⟩ := demoR_acyclic
  have hle : ∀ {s t : Nat} {ws : List XR}, NGram.Walk demoFstR s ws t → rank t + ws.length ≤ rank s := by
    intro s t ws h
    induction h with
    | here => simp
    | step hb _ ih =>
      have := hr _ _ _ hb
      simp only [List.length_cons]
      omega
  have := hle h1
  have := hle h2
  have : ws' = [] := List.length_eq_zero_iff.1 (by omega)
  exact hne this

theorem after1 : AfterWord (A := Arith.xr) demoFstR 0 1 2 2 :=
  .inl ⟨[], _, found_here (w := costOf (5/8)) ⟨_, [⟨0, costOf (1/2), 0⟩], [], rfl, rfl, by simp⟩⟩
theorem after2 : AfterWord (A := Arith.xr) demoFstR 0 2 3 0 :=
  .inl ⟨[], _, found_here (w := costOf (1/4)) ⟨_, [⟨0, costOf (1/2), 0⟩], [], rfl, rfl, by simp⟩⟩

/-- "ab" and a space: 5/8, and once in two times the text goes on. -/
theorem sentence : Sentence demoFstR 0 demoVocab (-1) 1 [[97, 98]] (5/16) 2 := by
  have := Sentence.cons outlook1 (l := 2) (w := [97, 98]) ((demo_word _ _).2 (by simp)) (by norm_num [P1]) after1 end2
    (.nil outlook2 (by simp [weight, mass2]))
  rw [mass1] at this
  norm_num [P1] at this ⊢
  exact this

theorem ending : Follows demoFstR 0 demoVocab (-1) 2 [97] [] (1/6) := by
  have := Follows.last outlook2 (l := 3) (p := [97]) ((demo_word _ _).2 (by simp)) after2 end0 (by norm_num)
  simp only [weight, mass2a] at this
  norm_num [P2] at this ⊢
  exact this

theorem enc_encodes : Encodes enc demoVocab (-1) := by
  intro sym d hd
  have : d ≠ 0 := by
    obtain ⟨l, w, hw, hp⟩ := hd
    rcases (demo_word l w).1 hw with ⟨_, rfl⟩ | ⟨_, rfl⟩ | ⟨_, rfl⟩ <;> (have := List.cons_prefix_cons.1 hp; omega)
  simp only [enc, List.cons.injEq, and_true]
  omega

/-- C102: after a request about "a", generation begins with "ab a" 15 times in 128, and is exactly "ab a" 5 times in 256. -/
example : ∃ (m : Word.Model XR) (fuel : Nat) (h0 h : Hub Arith.xr (Component Arith.xr)),
    m.static.base = demoBaseR ∧
    initializeModels (env Arith.xr enc fuel id id) [.word m] cfg = .ok (some h0) ∧
    serveAll (env Arith.xr enc fuel id id) h0 [.getLMScores [97] 0] = .ok h ∧
    uniforms {u | ∃ g w, Client.randGen (A := Arith.xr) (Client.Env.xr falling dec) (service (env Arith.xr enc fuel id id) dec) 128
      ⟨(h, fun i => .fin (u i)), []⟩ [] = .ok (g, w) ∧ [97, 98, 32, 97] <+: g.text} = ENNReal.ofReal (15/128) ∧
    uniforms {u | ∃ w, Client.randGen (A := Arith.xr) (Client.Env.xr falling dec) (service (env Arith.xr enc fuel id id) dec) 128
      ⟨(h, fun i => .fin (u i)), []⟩ [] = .ok (⟨true, [97, 98, 32, 97]⟩, w)} = ENNReal.ofReal (5/256) := by
  obtain ⟨m, hm, hb, hst⟩ := demoR_scored
  have hs : ∀ x ∈ [Component.word (A := Arith.xr) m], Served enc x := by
    intro x hx
    simp only [List.mem_singleton] at hx
    subst hx
    exact .word hm.usable (by rw [hb]; exact enc_encodes)
  have hw : Wording m := ⟨hm, by rw [hb]; exact ends_le⟩
  obtain ⟨b1, hb1⟩ := C102_generation (encode := enc) (sort := falling) (decode := dec) (m := m) (ms := []) hs (by simp) hw
    (fun c _ => rfl) (fun sym c hc => by simp [dec] at hc; obtain ⟨b, _, rfl⟩ := hc; exact Int.natCast_nonneg b) rfl (fun l => (falling_sorts l).1)
    (u := 0) (by rw [hb]; rfl)
  obtain ⟨b2, hb2⟩ := C72_service hs (by simp)
  have hf : (env Arith.xr enc (max b1 b2) id id).Fair := ⟨fun _ => .refl _, fun _ => .refl _⟩
  obtain ⟨h0, hr0⟩ : ∃ h0, initializeModels (env Arith.xr enc (max b1 b2) id id) [.word m] cfg = .ok (some h0) :=
    ⟨_, by rw [initialize_eq hf, if_neg (by simp [cfg])]⟩
  obtain ⟨h, hr⟩ : ∃ h, serveAll (env Arith.xr enc (max b1 b2) id id) h0 [.getLMScores [97] 0] = .ok h := by
    obtain ⟨rep, h, e, _⟩ := (hb2 _ (le_max_right _ _) _ _ hf cfg [] h0 (by simp [cfg]) ⟨h0, hr0, rfl⟩).2 [97] 0
    exact ⟨h, by simp only [serveAll, serve, e, ok_bind]⟩
  have key := hb1 _ (le_max_left _ _) _ _ hf cfg h0 [.getLMScores [97] 0] h (by simp [cfg]) (by decide) hr0 hr (by intro r hr; simp at hr; subst hr; intro c hc; simp [Request.text] at hc; omega)
    [] 1 2 [[97, 98]] (5/16) [97] P2 (1/2) (by unfold Leads; rw [hb]; exact .nil _) (by rw [hb]; exact sentence) (by rw [hb]; exact outlook2)
    (.inr (by rw [hb]; exact mass2a ▸ (by norm_num))) (by decide) (by decide) [] 128 (by omega)
  rw [hb] at key
  have e1 : weight demoBaseR.symbols demoBaseR.oov P2 (1/2) [97] = 3/8 := by
    rw [weight, show mass demoBaseR.symbols demoBaseR.oov P2 [97] = 3/8 from mass2a]; simp
  have e2 : weight demoBaseR.symbols demoBaseR.oov P2 (1/2) [] = 1 := by
    rw [weight, show mass demoBaseR.symbols demoBaseR.oov P2 [] = 1/2 from mass2]; norm_num
  rw [e1, e2] at key
  refine ⟨m, _, h0, h, hb, hr0, hr, ?_, ?_⟩
  · have := key.1
    norm_num [spaced] at this ⊢
    exact this
  · have := (key.2 (by decide)).1 (1/6) ending
    norm_num [spaced] at this ⊢
    exact this

end Mozolm.System.WordDemo
