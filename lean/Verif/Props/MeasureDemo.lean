import Verif.Props.MeasureModels
import Verif.Props.TextChanceDemo
import Verif.Props.WordChanceDemo

/-! # C103 at work -/

namespace Mozolm.System.TextDemo
open Mozolm.Hub Mozolm.Server Mozolm.NGram XR PairsDemo

/-- The file "ac": "c" is not in the table and leads where the backoff leads. -/
theorem metered : MeteredFile enc dec model [[[97], [99]]] 1 (charBits (1/4) + charBits 0 + charBits (1/2)) := by
  have s1 : Share model 0 1 (1/4) := by
    refine ⟨_, 1/4, weights0, ?_, by norm_num⟩
    cases weights0 with | cons _ h => cases h with | cons h _ => exact h
  have mv : Moves enc model 1 (dec [99]) 0 :=
    .cons (by decide) (.unknown (w := costOf (2/3)) (by decide) (by decide) ⟨_, [], _, rfl, rfl, by simp⟩) .nil
  have := MeteredFile.cons (line := [[97], [99]]) (.known (decode := dec) (e := (1, [97])) (by decide) s1 moves_a
    (.unknown (sym := [99]) (by decide) mv (.known (e := (0, [])) (by decide) ending .nil .nil))) .nil
  simpa [add_assoc] using this

/-- C103: the file is measured as the specification says, and exists for every file (of other characters than "<"). -/
example : ∃ (fuel : Nat) (h0 h : Hub Arith.xr (Component Arith.xr)),
    initializeModels (env Arith.xr enc fuel id id) [.char model] cfg = .ok (some h0) ∧
    serveAll (env Arith.xr enc fuel id id) h0 [.getLMScores [97] 0] = .ok h ∧
    ∃ w', Client.calcBitsPerCharacter (A := Arith.xr) (Client.Env.xr falling dec) (service (env Arith.xr enc fuel id id) dec)
      ⟨(h, fun _ => .fin 0), []⟩ [[[97], [99]]] = .ok (some ⟨3, 1, .fin ((charBits (1/4) + charBits 0 + charBits (1/2)) / 3)⟩, w') := by
  have hs : ∀ x ∈ [Component.char (A := Arith.xr) model], Served enc x := by
    intro x hx
    simp only [List.mem_singleton] at hx
    subst hx
    exact .char read_src closed acyclic
  obtain ⟨b1, hb1⟩ := C103_char (encode := enc) (sort := falling) (decode := dec) (m := model) (ms := []) hs (by simp) telling
    (fun sym c hc => by simp [dec] at hc; obtain ⟨b, _, rfl⟩ := hc; exact Int.natCast_nonneg b) rfl (fun l => (falling_sorts l).1)
  obtain ⟨b2, hb2⟩ := C72_service hs (by decide)
  have hf : (env Arith.xr enc (max b1 b2) id id).Fair := ⟨fun _ => .refl _, fun _ => .refl _⟩
  obtain ⟨h0, hr0⟩ : ∃ h0, initializeModels (env Arith.xr enc (max b1 b2) id id) [.char model] cfg = .ok (some h0) :=
    ⟨_, by rw [initialize_eq hf, if_neg (by simp [cfg])]⟩
  obtain ⟨h, hr⟩ : ∃ h, serveAll (env Arith.xr enc (max b1 b2) id id) h0 [.getLMScores [97] 0] = .ok h := by
    obtain ⟨rep, h, e, _⟩ := (hb2 _ (le_max_right _ _) _ _ hf cfg [] h0 (by simp [cfg]) ⟨h0, hr0, rfl⟩).2 [97] 0
    exact ⟨h, by simp only [serveAll, serve, e, ok_bind]⟩
  obtain ⟨w', e⟩ := hb1 _ (le_max_left _ _) _ _ hf cfg h0 [.getLMScores [97] 0] h (by simp [cfg]) (by decide) hr0 hr (by intro r hr; simp at hr; subst hr; intro c hc; simp [Request.text] at hc; omega)
    _ _ _ metered (by simp) (by decide) (fun _ => .fin 0) []
  refine ⟨_, h0, h, hr0, hr, w', ?_⟩
  rw [e]
  simp

end Mozolm.System.TextDemo

namespace Mozolm.System.WordDemo
open Mozolm.Hub Mozolm.Server Mozolm.NGram Mozolm.Word XR PairsDemo

theorem mass1a : mass demoVocab (-1) P1 [97] = 3/4 := by simp [Word.mass, demoVocab, P1]; norm_num
theorem mass1ab : mass demoVocab (-1) P1 [97, 98] = 5/8 := by simp [Word.mass, demoVocab, P1]
theorem mass1b : mass demoVocab (-1) P1 [98] = 1/8 := by simp [Word.mass, demoVocab, P1]

theorem follows_a : Follows demoFstR 0 demoVocab (-1) 1 [] [97] (3/4) := by
  have := Follows.letter (u := 0) outlook1 (p := []) (c := 97) (by decide) ⟨2, [97, 98], (demo_word _ _).2 (by simp), by decide⟩
  simp only [List.nil_append, weight, mass1, mass1a] at this
  norm_num at this ⊢
  exact this

theorem follows_ab : Follows demoFstR 0 demoVocab (-1) 1 [97] [98] (5/6) := by
  have := Follows.letter (u := 0) outlook1 (p := [97]) (c := 98) (by decide) ⟨2, [97, 98], (demo_word _ _).2 (by simp), by decide⟩
  simp only [List.cons_append, List.nil_append, weight, mass1ab, mass1a] at this
  norm_num at this ⊢
  exact this

theorem follows_end : Follows demoFstR 0 demoVocab (-1) 1 [97, 98] [] (1/2) := by
  have := Follows.last outlook1 (l := 2) (p := [97, 98]) ((demo_word _ _).2 (by simp)) after1 end2 (by norm_num)
  simp only [weight, mass1ab, if_neg (show ¬ ([97, 98] : Str) = [] by decide)] at this
  norm_num [P1] at this ⊢
  exact this

theorem follows_b : Follows demoFstR 0 demoVocab (-1) 1 [] [98] (1/8) := by
  have := Follows.letter (u := 0) outlook1 (p := []) (c := 98) (by decide) ⟨1, [98], (demo_word _ _).2 (by simp), by decide⟩
  simp only [List.nil_append, weight, mass1, mass1b] at this
  norm_num at this ⊢
  exact this

theorem weight1 : 0 < weight demoVocab (-1) P1 (1/8) [] := by simp only [weight, mass1]; norm_num
theorem weight1a : 0 < weight demoVocab (-1) P1 (1/8) [97] := by simp only [weight, mass1a]; norm_num
theorem weight1ab : 0 < weight demoVocab (-1) P1 (1/8) [97, 98] := by
  simp only [weight, mass1ab, if_neg (show ¬ ([97, 98] : Str) = [] by decide)]; norm_num
theorem weight1b : 0 < weight demoVocab (-1) P1 (1/8) [98] := by simp only [weight, mass1b]; norm_num

/-- C103: the file "ab" is measured; "bb" is not: no word begins so, and the client gives up. -/
example : ∃ (m : Word.Model XR) (fuel : Nat) (h0 h : Hub Arith.xr (Component Arith.xr)),
    m.static.base = demoBaseR ∧
    initializeModels (env Arith.xr enc fuel id id) [.word m] cfg = .ok (some h0) ∧
    serveAll (env Arith.xr enc fuel id id) h0 [.getLMScores [97] 0] = .ok h ∧
    (∃ w', Client.calcBitsPerCharacter (A := Arith.xr) (Client.Env.xr falling dec) (service (env Arith.xr enc fuel id id) dec)
      ⟨(h, fun _ => .fin 0), []⟩ [[[97], [98]]] = .ok (some ⟨3, 0, .fin ((charBits (3/4) + (charBits (5/6) + charBits (1/2))) / 3)⟩, w')) ∧
    ∃ w', Client.calcBitsPerCharacter (A := Arith.xr) (Client.Env.xr falling dec) (service (env Arith.xr enc fuel id id) dec)
      ⟨(h, fun _ => .fin 0), []⟩ [[[97], [98]], [[98], [98], [32], [97]]] = .ok (none, w') := by
  obtain ⟨m, hm, hb, hst⟩ := demoR_scored
  have hs : ∀ x ∈ [Component.word (A := Arith.xr) m], Served enc x := by
    intro x hx
    simp only [List.mem_singleton] at hx
    subst hx
    exact .word hm.usable (by rw [hb]; exact enc_encodes)
  have hw : Wording m := ⟨hm, by rw [hb]; exact ends_le⟩
  obtain ⟨b1, hb1⟩ := C103_word (encode := enc) (sort := falling) (decode := dec) (m := m) (ms := []) hs (by simp) hw
    (fun sym c hc => by simp [dec] at hc; obtain ⟨b, _, rfl⟩ := hc; exact Int.natCast_nonneg b) rfl (fun l => (falling_sorts l).1)
    (u := 0) (by rw [hb]; rfl) (P0 := P1) (F0 := 1/8) (by rw [hb]; exact outlook1) (by rw [hb]; exact weight1)
  obtain ⟨b2, hb2⟩ := C72_service hs (by simp)
  have hf : (env Arith.xr enc (max b1 b2) id id).Fair := ⟨fun _ => .refl _, fun _ => .refl _⟩
  obtain ⟨h0, hr0⟩ : ∃ h0, initializeModels (env Arith.xr enc (max b1 b2) id id) [.word m] cfg = .ok (some h0) :=
    ⟨_, by rw [initialize_eq hf, if_neg (by simp [cfg])]⟩
  obtain ⟨h, hr⟩ : ∃ h, serveAll (env Arith.xr enc (max b1 b2) id id) h0 [.getLMScores [97] 0] = .ok h := by
    obtain ⟨rep, h, e, _⟩ := (hb2 _ (le_max_right _ _) _ _ hf cfg [] h0 (by simp [cfg]) ⟨h0, hr0, rfl⟩).2 [97] 0
    exact ⟨h, by simp only [serveAll, serve, e, ok_bind]⟩
  obtain ⟨key1, key2⟩ := hb1 _ (le_max_left _ _) _ _ hf cfg h0 [.getLMScores [97] 0] h (by simp [cfg]) (by decide) hr0 hr (by intro r hr; simp at hr; subst hr; intro c hc; simp [Request.text] at hc; omega)
    (fun _ => .fin 0) []
  have k1 : Keyed dec m 0 m.static.base.fst.start [] [[97], [98], []] 0 (charBits (3/4) + (charBits (5/6) + (charBits (1/2) + 0))) 1 [97, 98] := by
    refine .known (P := P1) (F := 1/8) (q' := 1) (p' := [97]) (by rw [hb]; exact outlook1) (by rw [hb]; exact weight1) (by rw [hb]; exact follows_a) ?_ ?_
    · rw [hb]; exact .cons (.letter (c := 97) ⟨2, [97, 98], (demo_word _ _).2 (by simp), by decide⟩) (.nil _)
    refine .known (P := P1) (F := 1/8) (q' := 1) (p' := [97, 98]) (by rw [hb]; exact outlook1) (by rw [hb]; exact weight1a) (by rw [hb]; exact follows_ab) ?_ ?_
    · rw [hb]; exact .cons (.letter (p := [97]) (c := 98) ⟨2, [97, 98], (demo_word _ _).2 (by simp), by decide⟩) (.nil _)
    refine .known (P := P1) (F := 1/8) (q' := 1) (p' := [97, 98]) (by rw [hb]; exact outlook1) (by rw [hb]; exact weight1ab) (by rw [hb]; exact follows_end) (.nil _) ?_
    exact .nil (P := P1) (F := 1/8) (by rw [hb]; exact outlook1) (by rw [hb]; exact weight1ab)
  have k2 : Keyed dec m 0 m.static.base.fst.start [] [[98]] 0 (charBits (1/8) + 0) 1 [98] := by
    refine .known (P := P1) (F := 1/8) (q' := 1) (p' := [98]) (by rw [hb]; exact outlook1) (by rw [hb]; exact weight1) (by rw [hb]; exact follows_b) ?_ ?_
    · rw [hb]; exact .cons (.letter (c := 98) ⟨1, [98], (demo_word _ _).2 (by simp), by decide⟩) (.nil _)
    exact .nil (P := P1) (F := 1/8) (by rw [hb]; exact outlook1) (by rw [hb]; exact weight1b)
  have kf : KeyedFile dec m 0 [[[97], [98]]] (0 + 0) (charBits (3/4) + (charBits (5/6) + (charBits (1/2) + 0)) + 0) := .cons (line := [[97], [98]]) k1 .nil
  refine ⟨m, _, h0, h, hb, hr0, hr, ?_, ?_⟩
  · obtain ⟨w', e⟩ := key1 _ _ _ kf (by simp) (by decide)
    refine ⟨w', ?_⟩
    rw [e]
    simp
  · refine key2 [[[97], [98]]] _ _ [[98]] [98] [[32], [97]] _ _ 1 [98] [] kf k2 ?_ (by decide)
    rw [hb]
    refine .cons (.lost (by decide) (by decide) fun d hd => ?_) (.nil _)
    rintro ⟨l, w, hw, hp⟩
    have : d = 98 := by have : (98 : Int) = d := hd; omega
    subst this
    rcases (demo_word l w).1 hw with ⟨_, rfl⟩ | ⟨_, rfl⟩ | ⟨_, rfl⟩ <;> simp [List.cons_prefix_cons] at hp

end Mozolm.System.WordDemo
