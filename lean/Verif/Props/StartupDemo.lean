import Verif.Props.Startup

/-!
# C109: files and configurations meeting the hypotheses
-/

namespace Mozolm.System.StartupDemo
open Mozolm.System Mozolm.Hub

/-- The file `[1]` is a vocabulary of two characters, the file `[2]` an automaton with its symbols, the file `[3]` one without. -/
noncomputable def disk : Disk XR :=
  { bytes := fun n => if n = [1] then some [57, 55, 10, 57, 56, 10] else if n = [4] then some [120, 10] else none
    lines := fun n => if n = [1] then some Ppm.Demo.vocab else none
    fst := fun n => if n = [2] then some (Word.demoFstR, some Word.demoVocab) else if n = [3] then some (Word.demoFstR, none) else none
    table := fun _ => none
    canonical := fun _ => true, normalized := fun _ => true, maxOrder := fun _ => 2
    train := fun _ _ => .fail }

noncomputable def storage (model vocabulary : Str) (isFst : Bool) : Storage XR :=
  { modelFile := model, vocabularyFile := vocabulary, ppm := { Ppm.Demo.opts with modelIsFst := isFst }, wordCache := 5 }

/-- four models, one of each kind, interpolated with adaptive weights -/
noncomputable def hubConfig : Config.ModelHubConfig (Storage XR) XR :=
  { models := [⟨.bigram, storage [] [1] false, .fin 0⟩, ⟨.ppm, storage [] [1] false, .fin 0⟩,
      ⟨.charNGram, storage [2] [] false, .fin 0⟩, ⟨.wordNGram, storage [2] [] false, .fin 0⟩]
    mixture := .interpolation, bayesianHistoryLength := 2, maxStates := 0 }

/-- The files of the four models are in order. -/
theorem fine : ∀ mc ∈ Config.asked (A := Arith.xr) (Storage.default Arith.xr) hubConfig, Fine (A := Arith.xr) demoEncode disk mc := by
  have hask : Config.asked (A := Arith.xr) (Storage.default Arith.xr) hubConfig = hubConfig.models := if_neg (by simp [hubConfig])
  have hauto : Automaton (A := Arith.xr) disk (storage [2] [] false) Word.demoFstR Word.demoVocab := by
    refine ⟨by simp [storage], ⟨some Word.demoVocab, by simp [disk, storage], .inl rfl⟩, rfl, rfl, Word.demoR_closed, Word.demoR_acyclic⟩
  have hoov : Word.demoVocab.findLabel NGram.unknownSymbol = -1 := by decide
  rw [hask]
  intro mc hm
  simp only [hubConfig, List.mem_cons, List.not_mem_nil, or_false] at hm
  rcases hm with rfl | rfl | rfl | rfl
  · refine .bigram (utf8 := [97, 98]) (mat := [[1, 1], [1, 1]]) ?_ (by decide)
    have hd : Bigram.Describes (.named (some [57, 55, 10, 57, 56, 10])) .absent [97, 98] [[1, 1], [1, 1]] := by
      have h : ∃ m, Bigram.read (.named (some [57, 55, 10, 57, 56, 10])) .absent = .ok (some m) ∧ m.utf8 = [97, 98] ∧ m.counts = [[1, 1], [1, 1]] :=
        ⟨_, rfl, rfl, rfl⟩
      exact (Bigram.C19_read_accepts_described.1 h).1
    have e1 : disk.file (storage [] [1] false).vocabularyFile = .named (some [57, 55, 10, 57, 56, 10]) := by
      simp [Disk.file, storage, disk]
    have e2 : disk.file (storage [] [1] false).modelFile = .absent := by simp [Disk.file, storage]
    rw [e1, e2]
    exact hd
  · exact .ppmVocabulary (Ppm.laws_of _ (by simp [storage, Ppm.Demo.opts]) (by simp [storage, Ppm.Demo.opts])) rfl (by simp [storage]) (by simp [storage, disk])
      Ppm.Demo.vocab_ok
  · exact .char hauto
  · exact .word hauto (by rw [hoov]; exact Word.demo_vocabulary) (by simp [Word.InTable, Word.demoFstR, Word.demoVocab])
      (by simp [disk]) (by rw [hoov]; exact Word.demo_encodes)

/-- a parser that gives a configuration for the text `[9]` -/
def host {H : Type} (h : H) : Config.Host (Config.ServerConfig H) :=
  { readFile := fun _ => none
    parse := fun t => if t = [9] then some { hub := h, address := [7], auth := {}, waitForClients := false, poolSize := 3 } else none }

theorem accepted {H : Type} (h : H) : Config.serverConfigFromFlags (host h) { config := [9] } =
    some { hub := h, address := [7], auth := {}, waitForClients := true, poolSize := 3 } := by
  simp [Config.serverConfigFromFlags, Config.configContents, host, Config.serverDefaults]

/-- C109: the program serves the four models. -/
example : ∃ f0 fuel s, serverMain f0 (env Arith.xr demoEncode fuel id id) disk (host hubConfig) (fun _ _ => true) { config := [9] } = .serves s ∧
    s.hub.models.length = 4 ∧ s.poolSize = 3 := by
  obtain ⟨b0, h0⟩ := C109_service (A := Arith.xr) (bind := fun _ _ => true) (accepted hubConfig) (by simp [hubConfig]) rfl fine
  obtain ⟨b, h1⟩ := h0 b0 (Nat.le_refl _)
  have hf : (env Arith.xr demoEncode b id id).Fair := ⟨fun _ => .refl _, fun _ => .refl _⟩
  obtain ⟨s, h2, h3, _⟩ := h1 b (Nat.le_refl _) id id hf
  refine ⟨b0, b, s, h2, ?_, ?_⟩
  · rw [← h3.length_eq, Config.asked, if_neg (by simp [hubConfig])]
    simp [hubConfig]
  · obtain ⟨c, ms, hc, _, _, _, _, _, h4, _⟩ := (C109_serves hf).1 h2
    rw [accepted] at hc
    cases hc
    exact h4

/-- C109: a text that is not a configuration, a model file that is not there, and an address that cannot be bound end the program with 1;
a PPM automaton without symbols, or a bigram vocabulary that is not a number, crashes it. -/
example : serverMain 0 (env Arith.xr demoEncode 0 id id) disk (host hubConfig) (fun _ _ => true) { config := [8] } = .exits 1 ∧
    serverMain 0 (env Arith.xr demoEncode 0 id id) disk (host { hubConfig with models := [⟨.charNGram, storage [6] [] false, .fin 0⟩] })
      (fun _ _ => true) { config := [9] } = .exits 1 ∧
    serverMain 0 (env Arith.xr demoEncode 0 id id) disk (host { hubConfig with models := [] })
      (fun _ _ => false) { config := [9] } = .exits 1 ∧
    serverMain 0 (env Arith.xr demoEncode 0 id id) disk (host { hubConfig with models := [⟨.ppm, storage [3] [] true, .fin 0⟩] })
      (fun _ _ => true) { config := [9] } = .dies .ub ∧
    serverMain 0 (env Arith.xr demoEncode 0 id id) disk (host { hubConfig with models := [⟨.bigram, storage [] [4] false, .fin 0⟩] })
      (fun _ _ => true) { config := [9] } = .dies .thrown := by
  have hf : (env Arith.xr demoEncode 0 id id).Fair := ⟨fun _ => .refl _, fun _ => .refl _⟩
  refine ⟨?_, ?_, ?_, ?_, ?_⟩
  · exact (C109_exits hf).2 ⟨rfl, .inl (by simp [Config.serverConfigFromFlags, Config.configContents, host])⟩
  · refine (C109_exits hf).2 ⟨rfl, .inr ⟨_, accepted _, .inl ⟨[], _, [], if_neg (by simp), by simp, .char ?_⟩⟩⟩
    simp [NGram.read, Disk.ngram, storage, disk]
  · refine (C109_exits hf).2 ⟨rfl, .inr ⟨_, accepted _, .inr ⟨?_, .inr rfl⟩⟩⟩
    intro mc hm
    rw [Config.asked, if_pos rfl] at hm
    rw [List.mem_singleton.1 hm]
    obtain ⟨m, k1, _⟩ := Bigram.C19_read_accepts_described.2 ⟨Bigram.Describes.builtin .absent, by decide⟩
    refine ⟨.bigram m, .bigram ?_⟩
    have e : disk.file [] = .absent := if_pos rfl
    rw [show (Storage.default Arith.xr).vocabularyFile = [] from rfl, show (Storage.default Arith.xr).modelFile = [] from rfl, e]
    exact k1
  · exact (C109_dies hf).2 ⟨_, accepted _, [], _, [], if_neg (by simp), by simp,
      (C109_ppm_false (by simp [storage])).1 Word.demoFstR (by simp [storage]) (by simp [disk, storage])⟩
  · refine (C109_dies hf).2 ⟨_, accepted _, [], _, [], if_neg (by simp), by simp, .bigram ?_⟩
    have e1 : disk.file (storage [] [4] false).vocabularyFile = .named (some [120, 10]) := by simp [Disk.file, storage, disk]
    rw [e1]
    rfl

end Mozolm.System.StartupDemo
