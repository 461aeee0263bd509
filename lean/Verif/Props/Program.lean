import Verif.Client.ProgramSpec
import Verif.Props.Config
import Verif.Props.Client
import Verif.Basic

/-! # C106: the client program -/

namespace Mozolm.Client
open Config (ClientConfig ClientFlags Host Configured)

variable {A : Arith} {ω H : Type} {L : Library A} {E : Env A} {O : Outside A ω} {host : Host (ClientConfig H A.D)}
  {f : ClientFlags A.D} {fuel : Nat} {w : World A.D ω} {c : ClientConfig H A.D}

/-- **C106** The program does what the configuration given says, at the address it says (the default one if it says none). -/
theorem C106_configured (he : Config.clientConfigFromFlags A host f = some c) :
    ∃ text c0, Configured host f.configFile f.config text ∧ host.parse text = some c0 ∧ c.job = c0.job ∧
      (c0.server.address ≠ [] → c.server.address = c0.server.address) ∧
      (c0.server.address = [] → c.server.address = literal "localhost:50051") := by
  simp only [Config.clientConfigFromFlags, Option.bind_eq_bind, Option.bind_eq_some_iff] at he
  obtain ⟨text, h1, c0, h2, he⟩ := he
  have hd : ∀ c' : ClientConfig H A.D, c'.server.address = (Config.serverDefaults c0.server).address →
      (c0.server.address ≠ [] → c'.server.address = c0.server.address) ∧
      (c0.server.address = [] → c'.server.address = literal "localhost:50051") := by
    intro c' h
    refine ⟨fun hn => ?_, fun hn => ?_⟩
    · rw [h, Config.serverDefaults]; exact if_neg hn
    · rw [h, Config.serverDefaults]
      simp only [hn, if_true]
      decide
  refine ⟨text, c0, Config.configured_iff.2 h1, h2, ?_⟩
  split at he
  · simp only [Config.clientTlsFromFlags, Option.bind_eq_bind, Option.bind_eq_some_iff] at he
    obtain ⟨cert, _, cc, _, ck, _, he⟩ := he
    cases he
    exact ⟨rfl, hd _ rfl⟩
  · cases he
    exact ⟨rfl, hd _ rfl⟩

/-- **C106** Nothing is sent, nothing printed and the exit code is 1 when the configuration cannot be had, when it does not say
what to do (or something unknown), and when the corpus cannot be opened. -/
theorem C106_nothing_sent
    (h : Config.clientConfigFromFlags A host f = none ∨ ∃ c, Config.clientConfigFromFlags A host f = some c ∧
      (c.job.type = .notSet ∨ c.job.type = .other ∨ c.job.type = .bitsPerChar ∧ O.corpus c.job.corpus = none)) :
    clientMain L E O host fuel w f = .ok ⟨1, [], w⟩ := by
  rcases h with h | ⟨c, h, ht | ht | ⟨ht, hc⟩⟩ <;> simp [clientMain, runClient, printed, *]

/-- **C106** The exit code is 0 or 1. A run that exits with 1 has printed nothing; one that exits with 0 has printed one result
and a newline. -/
theorem C106_exit {r : Exited A.D ω} (he : clientMain L E O host fuel w f = .ok r) :
    (r.code = 1 ∧ r.printed = []) ∨
    (r.code = 0 ∧ ∃ c ms result, Config.clientConfigFromFlags A host f = some c ∧ r.printed = result ++ [10] ∧
      ((c.job.type = .randgen ∧ deadline L c.timeout = .ok ms ∧
        randGen E (O.connect c.server.address (Config.buildChannelCredentials c) ms) fuel w c.job.context = .ok (⟨true, result⟩, r.world)) ∨
       (c.job.type = .kBestItems ∧ deadline L c.timeout = .ok ms ∧ ∃ l,
        oneKbestSample E (O.connect c.server.address (Config.buildChannelCredentials c) ms) w c.job.kBest c.job.context =
          .ok (some l, r.world)) ∨
       (c.job.type = .bitsPerChar ∧ ∃ file b, O.corpus c.job.corpus = some file ∧ (file ≠ [] → deadline L c.timeout = .ok ms) ∧
        calcBitsPerCharacter E (O.connect c.server.address (Config.buildChannelCredentials c) ms) w file = .ok (some b, r.world)))) := by
  unfold clientMain at he
  cases hc : Config.clientConfigFromFlags A host f with
  | none =>
    rw [hc] at he
    cases he
    exact .inl ⟨rfl, rfl⟩
  | some c =>
    rw [hc] at he
    obtain ⟨q, hq, he⟩ := bind_ok.1 he
    cases he
    unfold runClient at hq
    cases ht : c.job.type with
    | notSet => simp only [ht] at hq; cases hq; exact .inl ⟨rfl, rfl⟩
    | other => simp only [ht] at hq; cases hq; exact .inl ⟨rfl, rfl⟩
    | randgen =>
      simp only [ht] at hq
      obtain ⟨ms, hms, hq⟩ := bind_ok.1 hq
      obtain ⟨⟨⟨ok, text⟩, w'⟩, hg, hq⟩ := bind_ok.1 hq
      cases hq
      cases ok with
      | false => exact .inl ⟨rfl, rfl⟩
      | true => exact .inr ⟨rfl, c, ms, text, rfl, rfl, .inl ⟨ht, hms, hg⟩⟩
    | kBestItems =>
      simp only [ht] at hq
      obtain ⟨ms, hms, hq⟩ := bind_ok.1 hq
      obtain ⟨⟨l, w'⟩, hg, hq⟩ := bind_ok.1 hq
      cases l with
      | none => cases hq; exact .inl ⟨rfl, rfl⟩
      | some l => cases hq; exact .inr ⟨rfl, c, ms, _, rfl, rfl, .inr (.inl ⟨ht, hms, l, hg⟩)⟩
    | bitsPerChar =>
      simp only [ht] at hq
      cases hf : O.corpus c.job.corpus with
      | none => simp only [hf] at hq; cases hq; exact .inl ⟨rfl, rfl⟩
      | some file =>
        cases file with
        | nil =>
          simp only [hf] at hq
          cases hq
          exact .inr ⟨rfl, c, 0, _, rfl, rfl, .inr (.inr ⟨ht, [], _, hf, fun h => absurd rfl h, rfl⟩)⟩
        | cons line lines =>
          simp only [hf] at hq
          obtain ⟨ms, hms, hq⟩ := bind_ok.1 hq
          obtain ⟨⟨b, w'⟩, hg, hq⟩ := bind_ok.1 hq
          cases b with
          | none => cases hq; exact .inl ⟨rfl, rfl⟩
          | some b => cases hq; exact .inr ⟨rfl, c, ms, _, rfl, rfl, .inr (.inr ⟨ht, _, b, hf, fun _ => hms, hg⟩)⟩

theorem kbestPrint_eq (text : Str) (l : List (A.D × Str)) : kbestPrint L text l = text ++ (l.map (shown L.fixed3)).flatten := by
  induction l generalizing text with
  | nil => simp [kbestPrint]
  | cons x xs ih =>
    rw [kbestPrint, ih]
    simp [shown, literal]

/-- **C106** A generated text is printed as it is; if the generation fails nothing is, whatever was generated before. -/
theorem C106_generation (he : Config.clientConfigFromFlags A host f = some c) (hj : c.job.type = .randgen) {ms : Int}
    (hms : deadline L c.timeout = .ok ms) {g : Gen} {w' : World A.D ω}
    (hg : randGen E (O.connect c.server.address (Config.buildChannelCredentials c) ms) fuel w c.job.context = .ok (g, w')) :
    clientMain L E O host fuel w f = .ok (if g.ok then ⟨0, g.text ++ [10], w'⟩ else ⟨1, [], w'⟩) := by
  obtain ⟨ok, text⟩ := g
  simp only [clientMain, he, runClient, hj, hms, ok_bind, hg, printed]
  cases ok <;> rfl

/-- **C106** The continuations printed. -/
theorem C106_kbest (he : Config.clientConfigFromFlags A host f = some c) (hj : c.job.type = .kBestItems) {ms : Int}
    (hms : deadline L c.timeout = .ok ms) :
    (∀ l w', oneKbestSample E (O.connect c.server.address (Config.buildChannelCredentials c) ms) w c.job.kBest c.job.context =
        .ok (some l, w') →
      clientMain L E O host fuel w f = .ok ⟨0, kbestLine L.fixed3 c.job.kBest l, w'⟩) ∧
    (∀ w', oneKbestSample E (O.connect c.server.address (Config.buildChannelCredentials c) ms) w c.job.kBest c.job.context = .ok (none, w') →
      clientMain L E O host fuel w f = .ok ⟨1, [], w'⟩) ∧
    (∀ e, oneKbestSample E (O.connect c.server.address (Config.buildChannelCredentials c) ms) w c.job.kBest c.job.context = .error e →
      clientMain L E O host fuel w f = .error e) := by
  refine ⟨fun l w' h => ?_, fun w' h => ?_, fun e h => ?_⟩
  · simp only [clientMain, he, runClient, hj, hms, ok_bind, h, printed, kbestText, kbestPrint_eq, kbestLine]
    rfl
  · simp only [clientMain, he, runClient, hj, hms, ok_bind, h, printed]
    rfl
  · simp only [clientMain, he, runClient, hj, hms, ok_bind, h]
    rfl

/-- **C106** The figures printed for a corpus. -/
theorem C106_bits (he : Config.clientConfigFromFlags A host f = some c) (hj : c.job.type = .bitsPerChar) {file : List (List Str)}
    (hfile : O.corpus c.job.corpus = some file) (hne : file ≠ []) {ms : Int} (hms : deadline L c.timeout = .ok ms) :
    (∀ b w', calcBitsPerCharacter E (O.connect c.server.address (Config.buildChannelCredentials c) ms) w file = .ok (some b, w') →
      clientMain L E O host fuel w f = .ok ⟨0, corpusLine L.double b.chars b.oov b.bitsPerChar, w'⟩) ∧
    (∀ w', calcBitsPerCharacter E (O.connect c.server.address (Config.buildChannelCredentials c) ms) w file = .ok (none, w') →
      clientMain L E O host fuel w f = .ok ⟨1, [], w'⟩) := by
  cases file with
  | nil => exact absurd rfl hne
  | cons line lines =>
    refine ⟨fun b w' h => ?_, fun w' h => ?_⟩
    · simp only [clientMain, he, runClient, hj, hfile, hms, ok_bind, h, printed, bitsText, corpusLine]
      rfl
    · simp only [clientMain, he, runClient, hj, hfile, hms, ok_bind, h, printed]
      rfl

/-- **C106** No reply can be waited for when the time-out in milliseconds is not a 64-bit number: undefined. -/
theorem C106_undefined (he : Config.clientConfigFromFlags A host f = some c)
    (hj : c.job.type = .randgen ∨ c.job.type = .kBestItems ∨
      c.job.type = .bitsPerChar ∧ ∃ file, O.corpus c.job.corpus = some file ∧ file ≠ [])
    (hms : L.toInt64 (A.dmul (A.ofInt 1000) c.timeout) = none) : clientMain L E O host fuel w f = .error .ub := by
  have hd : deadline L c.timeout = .error .ub := by simp [deadline, hms]
  rcases hj with hj | hj | ⟨hj, file, hf, hne⟩
  · simp only [clientMain, he, runClient, hj, hd]; rfl
  · simp only [clientMain, he, runClient, hj, hd]; rfl
  · cases file with
    | nil => exact absurd rfl hne
    | cons => simp only [clientMain, he, runClient, hj, hf, hd]; rfl

end Mozolm.Client
