import Verif.System.StartupSpec
import Verif.Props.Config
import Verif.Props.BigramFault
import Verif.Props.SystemService
import Verif.Props.PpmTrain

/-!
# C109: the server program, from the files to the service
-/

namespace Mozolm.System
open Mozolm.Hub Mozolm.Server

variable {A : Arith} {fuel : Nat} {d : Disk A.C} {encode : Int → Str}
  {host : Config.Host (Config.ServerConfig (Config.ModelHubConfig (Storage A.D) A.C))}
  {bind : Str → Config.ServerCreds → Bool} {flags : Config.ServerFlags} {env' : Env A (Component A)}

/-! ## one model -/

theorem load_some {mc : Config.ModelConfig (Storage A.D) A.C} {m : Component A} :
    loadModel A fuel d mc = .ok (some m) ↔ Loads fuel d mc m := by
  rcases mc with ⟨ty, s, w⟩
  constructor
  · intro h
    cases ty with
    | bigram =>
      simp only [loadModel, loadBigram] at h
      obtain ⟨r, h1, h2⟩ := bind_ok.1 h
      cases r with
      | none => cases h2
      | some r => cases h2; exact .bigram h1
    | charNGram =>
      simp only [loadModel, loadChar] at h
      obtain ⟨r, h1, h2⟩ := bind_ok.1 h
      cases r with
      | none => cases h2
      | some r => cases h2; exact .char h1
    | ppm =>
      simp only [loadModel, loadPpm] at h
      split at h
      · cases h
      · next r h1 =>
        cases r with
        | none => cases h
        | some r => cases h; exact .ppm h1
    | wordNGram =>
      simp only [loadModel, loadWord] at h
      obtain ⟨r, h1, h2⟩ := bind_ok.1 h
      cases r with
      | none => cases h2
      | some r => cases h2; exact .word h1
    | other => cases h
  · intro h
    cases h with
    | bigram h => simp only [loadModel, loadBigram, h, ok_bind]; rfl
    | char h => simp only [loadModel, loadChar, h, ok_bind]; rfl
    | ppm h => simp only [loadModel, loadPpm, h]; rfl
    | word h => simp only [loadModel, loadWord, h, ok_bind]; rfl

theorem load_none {mc : Config.ModelConfig (Storage A.D) A.C} : loadModel A fuel d mc = .ok none ↔ Refuses fuel d mc := by
  rcases mc with ⟨ty, s, w⟩
  constructor
  · intro h
    cases ty with
    | bigram =>
      simp only [loadModel, loadBigram] at h
      obtain ⟨r, h1, h2⟩ := bind_ok.1 h
      cases r with
      | none => exact .bigram h1
      | some r => cases h2
    | charNGram =>
      simp only [loadModel, loadChar] at h
      obtain ⟨r, h1, h2⟩ := bind_ok.1 h
      cases r with
      | none => exact .char h1
      | some r => cases h2
    | ppm =>
      simp only [loadModel, loadPpm] at h
      split at h
      · cases h
      · next r h1 =>
        cases r with
        | none => exact .ppm h1
        | some r => cases h
    | wordNGram =>
      simp only [loadModel, loadWord] at h
      obtain ⟨r, h1, h2⟩ := bind_ok.1 h
      cases r with
      | none => exact .word h1
      | some r => cases h2
    | other => exact .other
  · intro h
    cases h with
    | bigram h => simp only [loadModel, loadBigram, h, ok_bind]; rfl
    | char h => simp only [loadModel, loadChar, h, ok_bind]; rfl
    | ppm h => simp only [loadModel, loadPpm, h]; rfl
    | word h => simp only [loadModel, loadWord, h, ok_bind]; rfl
    | other => rfl

theorem load_error {mc : Config.ModelConfig (Storage A.D) A.C} {e : Fault} :
    loadModel A fuel d mc = .error e ↔ Kills fuel d mc e := by
  rcases mc with ⟨ty, s, w⟩
  constructor
  · intro h
    cases ty with
    | bigram =>
      simp only [loadModel, loadBigram] at h
      cases h1 : Bigram.read (d.file s.vocabularyFile) (d.file s.modelFile) with
      | ok r => rw [h1] at h; cases h
      | error e' => rw [h1] at h; cases h; exact .bigram h1
    | charNGram =>
      simp only [loadModel, loadChar] at h
      cases h1 : NGram.read A (d.ngram s) with
      | ok r => rw [h1] at h; cases h
      | error e' => rw [h1] at h; cases h; exact .char h1
    | ppm =>
      simp only [loadModel, loadPpm] at h
      split at h
      · next e' h1 => cases h; exact .ppm h1
      · cases h
    | wordNGram =>
      simp only [loadModel, loadWord] at h
      cases h1 : Word.read A fuel s.wordCache (d.ngram s) with
      | ok r => rw [h1] at h; cases h
      | error e' => rw [h1] at h; cases h; exact .word h1
    | other => cases h
  · intro h
    cases h with
    | bigram h => simp only [loadModel, loadBigram, h]; rfl
    | char h => simp only [loadModel, loadChar, h]; rfl
    | ppm h => simp only [loadModel, loadPpm, h]
    | word h => simp only [loadModel, loadWord, h]; rfl

/-! ## all of them -/

theorem loads_unique {mc : Config.ModelConfig (Storage A.D) A.C} {m : Component A} (h : Loads fuel d mc m) :
    ¬ Refuses fuel d mc ∧ ∀ e, ¬ Kills fuel d mc e := by
  have := load_some.2 h
  exact ⟨fun h' => (by rw [load_none.2 h'] at this; cases this), fun e h' => (by rw [load_error.2 h'] at this; cases this)⟩

theorem firstBad_cons {P : Config.ModelConfig (Storage A.D) A.C → Prop} {mc : Config.ModelConfig (Storage A.D) A.C}
    {mcs : List (Config.ModelConfig (Storage A.D) A.C)} :
    FirstBad fuel d P (mc :: mcs) ↔ P mc ∨ ((∃ m, Loads fuel d mc m) ∧ FirstBad fuel d P mcs) := by
  constructor
  · rintro ⟨pre, x, post, h1, h2, h3⟩
    cases pre with
    | nil => simp only [List.nil_append, List.cons.injEq] at h1; rw [h1.1]; exact .inl h3
    | cons y pre =>
      simp only [List.cons_append, List.cons.injEq] at h1
      obtain ⟨rfl, h1⟩ := h1
      exact .inr ⟨h2 _ (by simp), pre, x, post, h1, fun z hz => h2 z (by simp [hz]), h3⟩
  · rintro (h | ⟨h, pre, x, post, h1, h2, h3⟩)
    · exact ⟨[], mc, mcs, rfl, by simp, h⟩
    · refine ⟨mc :: pre, x, post, by simp [h1], ?_, h3⟩
      intro z hz
      rcases List.mem_cons.1 hz with rfl | hz
      · exact h
      · exact h2 z hz

theorem firstBad_nil {P : Config.ModelConfig (Storage A.D) A.C → Prop} : ¬ FirstBad fuel d P [] := by
  rintro ⟨pre, x, post, h1, _⟩
  cases pre <;> cases h1

theorem loadModels_some {mcs : List (Config.ModelConfig (Storage A.D) A.C)} {ms : List (Component A)} :
    loadModels A fuel d mcs = .ok (some ms) ↔ Pointwise (Loads fuel d) mcs ms := by
  induction mcs generalizing ms with
  | nil =>
    constructor
    · intro h; cases h; exact .nil
    · intro h; cases h; rfl
  | cons mc mcs ih =>
    constructor
    · intro h
      simp only [loadModels] at h
      obtain ⟨r, h1, h⟩ := bind_ok.1 h
      cases r with
      | none => cases h
      | some m =>
        obtain ⟨r', h2, h⟩ := bind_ok.1 h
        cases r' with
        | none => cases h
        | some ms' => cases h; exact .cons (load_some.1 h1) (ih.1 h2)
    · intro h
      cases h with
      | @cons _ m _ ms' h1 h2 =>
        simp only [loadModels, load_some.2 h1, ok_bind, ih.2 h2]

theorem loadModels_none {mcs : List (Config.ModelConfig (Storage A.D) A.C)} :
    loadModels A fuel d mcs = .ok none ↔ FirstBad fuel d (Refuses fuel d) mcs := by
  induction mcs with
  | nil => exact ⟨fun h => (by cases h), fun h => absurd h firstBad_nil⟩
  | cons mc mcs ih =>
    rw [firstBad_cons, ← ih]
    simp only [loadModels]
    cases hl : loadModel A fuel d mc with
    | error e =>
      have hk := load_error.1 hl
      constructor
      · intro h; cases h
      · rintro (h | ⟨⟨m, h⟩, _⟩)
        · rw [load_none.2 h] at hl; cases hl
        · exact absurd hk ((loads_unique h).2 e)
    | ok r =>
      rw [ok_bind]
      cases r with
      | none => exact ⟨fun _ => .inl (load_none.1 hl), fun _ => rfl⟩
      | some m =>
        have hm := load_some.1 hl
        simp only
        constructor
        · intro h
          obtain ⟨r', h2, h⟩ := bind_ok.1 h
          cases r' with
          | none => exact .inr ⟨⟨m, hm⟩, h2⟩
          | some ms' => cases h
        · rintro (h | ⟨_, h⟩)
          · exact absurd h (loads_unique hm).1
          · rw [h]; rfl

theorem loadModels_error {mcs : List (Config.ModelConfig (Storage A.D) A.C)} {e : Fault} :
    loadModels A fuel d mcs = .error e ↔ FirstBad fuel d (fun mc => Kills fuel d mc e) mcs := by
  induction mcs with
  | nil => exact ⟨fun h => (by cases h), fun h => absurd h firstBad_nil⟩
  | cons mc mcs ih =>
    rw [firstBad_cons, ← ih]
    simp only [loadModels]
    cases hl : loadModel A fuel d mc with
    | error e' =>
      have hk := load_error.1 hl
      constructor
      · intro h; cases h; exact .inl hk
      · rintro (h | ⟨⟨m, h⟩, _⟩)
        · rw [load_error.2 h] at hl; cases hl; rfl
        · exact absurd hk ((loads_unique h).2 e')
    | ok r =>
      rw [ok_bind]
      cases r with
      | none =>
        constructor
        · intro h; cases h
        · rintro (h | ⟨⟨m, h⟩, _⟩)
          · rw [load_error.2 h] at hl; cases hl
          · exact absurd (load_none.1 hl) (loads_unique h).1
      | some m =>
        have hm := load_some.1 hl
        simp only
        constructor
        · intro h
          cases h2 : loadModels A fuel d mcs with
          | error e' => rw [h2] at h; cases h; exact .inr ⟨⟨m, hm⟩, rfl⟩
          | ok r' => rw [h2, ok_bind] at h; cases r' <;> cases h
        · rintro (h | ⟨_, h⟩)
          · exact absurd h ((loads_unique hm).2 e)
          · rw [h]; rfl

theorem makeHub_eq (c : Config.ModelHubConfig (Storage A.D) A.C) :
    makeHub fuel d env' c = (do
      match ← loadModels A fuel d (Config.asked (Storage.default A) c) with
      | none => .ok none
      | some ms => initializeModels env' ms (Config.hubConfig c)) := by
  unfold makeHub Config.asked Config.defaultModelConfig
  by_cases h : c.models = []
  · simp only [h, List.length_nil, if_true]; rfl
  · rw [if_neg (by rw [List.length_eq_zero_iff]; exact h), if_neg h]; rfl

/-- the configured hub: made of the loaded models -/
theorem makeHub_cases (hf : env'.Fair) (c : Config.ModelHubConfig (Storage A.D) A.C) :
    (∃ e, makeHub fuel d env' c = .error e ∧ FirstBad fuel d (fun mc => Kills fuel d mc e) (Config.asked (Storage.default A) c)) ∨
    (makeHub fuel d env' c = .ok none ∧ FirstBad fuel d (Refuses fuel d) (Config.asked (Storage.default A) c)) ∨
    (∃ ms, makeHub fuel d env' c = .ok none ∧ Pointwise (Loads fuel d) (Config.asked (Storage.default A) c) ms ∧
      c.mixture = .unknown) ∨
    ∃ ms h, makeHub fuel d env' c = .ok (some h) ∧ Pointwise (Loads fuel d) (Config.asked (Storage.default A) c) ms ∧
      c.mixture ≠ .unknown ∧ initializeModels env' ms (Config.hubConfig c) = .ok (some h) := by
  rw [makeHub_eq]
  cases hl : loadModels A fuel d (Config.asked (Storage.default A) c) with
  | error e => exact .inl ⟨e, rfl, loadModels_error.1 hl⟩
  | ok r =>
    rw [ok_bind]
    cases r with
    | none => exact .inr (.inl ⟨rfl, loadModels_none.1 hl⟩)
    | some ms =>
      have hp := loadModels_some.1 hl
      have hi := initialize_eq hf ms (Config.hubConfig c)
      have hmix : (Config.hubConfig c).mixture = c.mixture := rfl
      rw [hmix] at hi
      by_cases hm : c.mixture = .unknown
      · rw [if_pos hm] at hi
        exact .inr (.inr (.inl ⟨ms, hi, hp, hm⟩))
      · rw [if_neg hm] at hi
        exact .inr (.inr (.inr ⟨ms, _, hi, hp, hm, hi⟩))

theorem firstBad_loaded {P : Config.ModelConfig (Storage A.D) A.C → Prop} (hP : ∀ mc, P mc → ∀ m, ¬ Loads fuel d mc m)
    {mcs : List (Config.ModelConfig (Storage A.D) A.C)} {ms : List (Component A)} (h : Pointwise (Loads fuel d) mcs ms) :
    ¬ FirstBad fuel d P mcs := by
  induction h with
  | nil => exact firstBad_nil
  | cons h _ ih =>
    rw [firstBad_cons]
    rintro (h' | ⟨_, h'⟩)
    · exact hP _ h' _ h
    · exact ih h'

theorem firstBad_one {P Q : Config.ModelConfig (Storage A.D) A.C → Prop} (hPQ : ∀ mc, P mc → ¬ Q mc)
    (hP : ∀ mc, P mc → ∀ m, ¬ Loads fuel d mc m) (hQ : ∀ mc, Q mc → ∀ m, ¬ Loads fuel d mc m)
    {mcs : List (Config.ModelConfig (Storage A.D) A.C)} (h : FirstBad fuel d P mcs) : ¬ FirstBad fuel d Q mcs := by
  induction mcs with
  | nil => exact absurd h firstBad_nil
  | cons mc mcs ih =>
    rw [firstBad_cons] at h ⊢
    rintro (h' | ⟨⟨m, hm⟩, h'⟩)
    · rcases h with h | ⟨⟨m, hm⟩, _⟩
      · exact hPQ _ h h'
      · exact hQ _ h' m hm
    · rcases h with h | ⟨_, h⟩
      · exact hP _ h m hm
      · exact ih h h'

theorem kills_not {mc : Config.ModelConfig (Storage A.D) A.C} {e : Fault} (h : Kills fuel d mc e) (m : Component A) :
    ¬ Loads fuel d mc m := fun h' => (loads_unique h').2 e h

theorem refuses_not {mc : Config.ModelConfig (Storage A.D) A.C} (h : Refuses fuel d mc) (m : Component A) :
    ¬ Loads fuel d mc m := fun h' => (loads_unique h').1 h

theorem kills_refuses {mc : Config.ModelConfig (Storage A.D) A.C} {e : Fault} (h : Kills fuel d mc e) : ¬ Refuses fuel d mc := fun h' => by
  have := load_error.2 h
  rw [load_none.2 h'] at this
  cases this

theorem kills_one {mc : Config.ModelConfig (Storage A.D) A.C} {e e' : Fault} (h : Kills fuel d mc e) (h' : Kills fuel d mc e') : e = e' := by
  have := load_error.2 h
  rw [load_error.2 h'] at this
  cases this; rfl

theorem loaded_all {mcs : List (Config.ModelConfig (Storage A.D) A.C)} {ms : List (Component A)}
    (h : Pointwise (Loads fuel d) mcs ms) : ∀ mc ∈ mcs, ∃ m, Loads fuel d mc m := by
  induction h with
  | nil => simp
  | cons h _ ih =>
    intro mc hm
    rcases List.mem_cons.1 hm with rfl | hm
    · exact ⟨_, h⟩
    · exact ih mc hm

theorem loaded_not_bad {P : Config.ModelConfig (Storage A.D) A.C → Prop} (hP : ∀ mc, P mc → ∀ m, ¬ Loads fuel d mc m)
    {mcs : List (Config.ModelConfig (Storage A.D) A.C)} (h : ∀ mc ∈ mcs, ∃ m, Loads fuel d mc m) : ¬ FirstBad fuel d P mcs := by
  rintro ⟨pre, mc, post, rfl, _, h3⟩
  obtain ⟨m, hm⟩ := h mc (by simp)
  exact hP mc h3 m hm

/-! ## the program -/

/-- what `main` does, given the configuration -/
theorem serverMain_eq {c : Config.ServerConfig (Config.ModelHubConfig (Storage A.D) A.C)}
    (hc : Config.serverConfigFromFlags host flags = some c) :
    serverMain fuel env' d host bind flags =
      match makeHub fuel d env' c.hub with
      | .error e => .dies e
      | .ok none => .exits 1
      | .ok (some h) =>
        if bind c.address (Config.buildServerCredentials c) = true then
          .serves { hub := h, address := c.address, creds := Config.buildServerCredentials c, poolSize := c.poolSize, up := true }
        else .exits 1 := by
  have hw : c.waitForClients = true := by
    obtain ⟨_, _, _, _, _, _, _, _, _, hw, _⟩ := Config.C58_flags hc
    exact hw
  simp only [serverMain, hc]
  cases makeHub fuel d env' c.hub with
  | error e => rfl
  | ok r =>
    cases r with
    | none => simp [Config.runServer, Config.Helper.init]
    | some h =>
      cases hb : bind c.address (Config.buildServerCredentials c) with
      | true => simp [Config.runServer, Config.Helper.init, hb, hw, Config.Helper.run]
      | false => simp [Config.runServer, Config.Helper.init, hb]

/-- **C109** The server program serves exactly when its configuration is accepted, every configured model (or the default
one) loads from the files named, the kind of mixture is known, and the address can be bound; it then serves exactly these
models in this order, with the hub `InitializeModels` makes of them, at the configured address, with the configured
credentials and number of threads. -/
theorem C109_serves (hf : env'.Fair) {s : Config.Started (Hub A (Component A))} :
    serverMain fuel env' d host bind flags = .serves s ↔
      ∃ c ms, Config.serverConfigFromFlags host flags = some c ∧
        Pointwise (Loads fuel d) (Config.asked (Storage.default A) c.hub) ms ∧
        initializeModels env' ms (Config.hubConfig c.hub) = .ok (some s.hub) ∧
        bind s.address s.creds = true ∧ s.address = c.address ∧ s.creds = Config.buildServerCredentials c ∧
        s.poolSize = c.poolSize ∧ s.up = true := by
  cases hc : Config.serverConfigFromFlags host flags with
  | none => simp [serverMain, hc]
  | some c =>
    rw [serverMain_eq hc]
    rcases makeHub_cases (fuel := fuel) (d := d) hf c.hub with ⟨e, h1, h2⟩ | ⟨h1, h2⟩ | ⟨ms, h1, h2, h3⟩ | ⟨ms, h, h1, h2, h3, h4⟩
    · rw [h1]
      constructor
      · intro h; cases h
      · rintro ⟨c', ms, hc', hp, _⟩
        cases hc'
        exact absurd h2 (firstBad_loaded (fun mc h => kills_not h) hp)
    · rw [h1]
      constructor
      · intro h; cases h
      · rintro ⟨c', ms, hc', hp, _⟩
        cases hc'
        exact absurd h2 (firstBad_loaded (fun mc h => refuses_not h) hp)
    · rw [h1]
      constructor
      · intro h; cases h
      · rintro ⟨c', ms', hc', hp, hi, _⟩
        cases hc'
        rw [initialize_eq hf, if_pos (show (Config.hubConfig c.hub).mixture = .unknown from h3)] at hi
        cases hi
    · rw [h1]
      simp only
      constructor
      · intro he
        split at he
        · next hb =>
          cases he
          exact ⟨c, ms, rfl, h2, h4, hb, rfl, rfl, rfl, rfl⟩
        · cases he
      · rintro ⟨c', ms', hc', hp, hi, hb, e1, e2, e3, e4⟩
        cases hc'
        have : ms' = ms := by
          have := loadModels_some.2 hp
          rw [loadModels_some.2 h2] at this
          cases this; rfl
        subst this
        rw [h4] at hi
        cases hi
        rw [e1, e2] at hb
        rw [if_pos hb]
        rcases s with ⟨sh, sa, sc, sp, su⟩
        simp only at e1 e2 e3 e4
        subst e1 e2 e3 e4
        rfl

/-- **C109** It ends with exit code 1, and only with that, exactly when the configuration is refused, or the first model that
does not load is one whose reader reports an error, or all load but the kind of mixture is unknown or the address cannot be
bound. -/
theorem C109_exits (hf : env'.Fair) {k : Int} :
    serverMain fuel env' d host bind flags = .exits k ↔ k = 1 ∧
      (Config.serverConfigFromFlags host flags = none ∨
        ∃ c, Config.serverConfigFromFlags host flags = some c ∧
          (FirstBad fuel d (Refuses fuel d) (Config.asked (Storage.default A) c.hub) ∨
            ((∀ mc ∈ Config.asked (Storage.default A) c.hub, ∃ m, Loads fuel d mc m) ∧
              (c.hub.mixture = .unknown ∨ bind c.address (Config.buildServerCredentials c) = false)))) := by
  cases hc : Config.serverConfigFromFlags host flags with
  | none =>
    simp only [serverMain, hc, true_or, and_true]
    exact ⟨fun h => (by cases h; rfl), fun h => (by rw [h])⟩
  | some c =>
    rw [serverMain_eq hc]
    simp only [reduceCtorEq, false_or, Option.some.injEq, exists_eq_left']
    rcases makeHub_cases (fuel := fuel) (d := d) hf c.hub with ⟨e, h1, h2⟩ | ⟨h1, h2⟩ | ⟨ms, h1, h2, h3⟩ | ⟨ms, h, h1, h2, h3, h4⟩
    · rw [h1]
      constructor
      · intro h; cases h
      · rintro ⟨_, h | ⟨h, _⟩⟩
        · exact absurd h (firstBad_one (fun mc h => kills_refuses h) (fun mc h => kills_not h) (fun mc h => refuses_not h) h2)
        · exact absurd h2 (loaded_not_bad (fun mc h => kills_not h) h)
    · rw [h1]
      exact ⟨fun h => (by cases h; exact ⟨rfl, .inl h2⟩), fun h => (by rw [h.1])⟩
    · rw [h1]
      exact ⟨fun h => (by cases h; exact ⟨rfl, .inr ⟨loaded_all h2, .inl h3⟩⟩), fun h => (by rw [h.1])⟩
    · rw [h1]
      simp only
      constructor
      · intro he
        split at he
        · cases he
        · next hb => cases he; exact ⟨rfl, .inr ⟨loaded_all h2, .inr (by simpa using hb)⟩⟩
      · rintro ⟨rfl, h' | ⟨_, h' | h'⟩⟩
        · exact absurd h' (firstBad_loaded (fun mc h => refuses_not h) h2)
        · exact absurd h' h3
        · rw [if_neg (by simp [h'])]

/-- **C109** It crashes exactly when the configuration is accepted and the first model that does not load is one whose reader
does not return. -/
theorem C109_dies (hf : env'.Fair) {e : Fault} :
    serverMain fuel env' d host bind flags = .dies e ↔
      ∃ c, Config.serverConfigFromFlags host flags = some c ∧
        FirstBad fuel d (fun mc => Kills fuel d mc e) (Config.asked (Storage.default A) c.hub) := by
  cases hc : Config.serverConfigFromFlags host flags with
  | none => simp [serverMain, hc]
  | some c =>
    rw [serverMain_eq hc]
    simp only [Option.some.injEq, exists_eq_left']
    rcases makeHub_cases (fuel := fuel) (d := d) hf c.hub with ⟨e', h1, h2⟩ | ⟨h1, h2⟩ | ⟨ms, h1, h2, h3⟩ | ⟨ms, h, h1, h2, h3, h4⟩
    · rw [h1]
      constructor
      · intro h; cases h; exact h2
      · intro h
        by_cases he : e' = e
        · rw [he]
        · exact absurd h (firstBad_one (fun mc h h' => he (kills_one h h')) (fun mc h => kills_not h) (fun mc h => kills_not h) h2)
    · rw [h1]
      exact ⟨fun h => (by cases h), fun h => absurd h2 (firstBad_one (fun mc h => kills_refuses h) (fun mc h => kills_not h) (fun mc h => refuses_not h) h)⟩
    · rw [h1]
      exact ⟨fun h => (by cases h), fun h => absurd h (firstBad_loaded (fun mc h => kills_not h) h2)⟩
    · rw [h1]
      simp only
      refine ⟨fun he => ?_, fun h => absurd h (firstBad_loaded (fun mc h => kills_not h) h2)⟩
      split at he <;> cases he

/-! ## files in order -/

theorem VocabularyLines.vocabulary {name : Str} (h : VocabularyLines d name) : ∃ v : Option (List (List Str)), d.vocabulary name = v.map some ∧ v ≠ some [] := by
  unfold Disk.vocabulary
  by_cases hn : name = []
  · exact ⟨none, by rw [if_pos hn]; rfl, by simp⟩
  · obtain ⟨ls, h1, h2⟩ := h hn
    exact ⟨some ls, by rw [if_neg hn, h1]; rfl, by simpa using h2⟩

theorem Automaton.model {s : Storage A.D} {f : Fst A.C} {t : SymbolTable} (h : Automaton d s f t) :
    ∃ m : NGram.Model A.C, NGram.read A (d.ngram s) = .ok (some m) ∧ m.fst = f ∧ m.symbols = t ∧
      m.oov = t.findLabel NGram.unknownSymbol ∧ m.hiOrder = d.maxOrder f := by
  obtain ⟨own, h1, h2⟩ := h.read
  have ht : NGram.symbolTable (d.ngram s) = some t := by
    simp only [NGram.symbolTable, Disk.ngram, h1, Option.bind_some]
    rcases h2 with rfl | ⟨rfl, h3, h4⟩
    · rfl
    · simp [h3, h4]
  have hst := h.closed.1
  obtain ⟨bo, hbo⟩ : ∃ bo, NGram.getBackoff A f f.start = .ok bo := by
    rcases NGram.getBackoff_spec (A := A) f hst with ⟨w, x, _, hg⟩ | ⟨_, hg⟩
    · exact ⟨_, hg⟩
    · exact ⟨_, hg⟩
  have hnf : (d.ngram s).noFile = false := by simp [Disk.ngram, h.named]
  have hfst : (d.ngram s).fst = some f := by simp [Disk.ngram, h1]
  refine ⟨{ fst := f, symbols := t, oov := t.findLabel NGram.unknownSymbol, unigram := if bo.1 = -1 then (f.start : Int) else bo.1, hiOrder := d.maxOrder f }, ?_, rfl, rfl, rfl, rfl⟩
  have hcan : (d.ngram s).canonical f = true := h.canonical
  have hnor : (d.ngram s).normalized f = true := h.normalized
  simp only [NGram.read, hnf, hfst, ht, hbo, ok_bind, hcan, hnor]
  rfl

/-- what is in order loads, and can be served -/
theorem Fine.loads {mc : Config.ModelConfig (Storage A.D) A.C} (h : Fine encode d mc) :
    ∃ bound, ∀ fuel, bound ≤ fuel → ∃ m, Loads fuel d mc m ∧ Served encode m := by
  cases h with
  | bigram h1 h2 =>
    obtain ⟨m, k1, _, _⟩ := Bigram.C19_read_accepts_described.2 ⟨h1, h2⟩
    exact ⟨0, fun _ _ => ⟨_, .bigram k1, .bigram k1⟩⟩
  | @ppmVocabulary s w ls Ok hl h1 h2 h3 h4 =>
    obtain ⟨m, _, _, k1, _⟩ := Ppm.read_vocab_ok hl h4
    refine ⟨0, fun _ _ => ⟨.ppm m, .ppm ?_, .ppm hl (.vocabulary h4 k1)⟩⟩
    have hv : d.vocabulary s.vocabularyFile = some (some ls) := by unfold Disk.vocabulary; rw [if_neg h2, h3]
    simp only [readPpm, h1, hv]
    exact k1
  | @ppmAutomaton s w f t ord mo V u Ok hl h1 h2 h3 h4 h5 h6 =>
    obtain ⟨v, v1, v2⟩ := h6.vocabulary
    obtain ⟨m, V', k1, _⟩ := Ppm.read_fst_ok hl h4 h5 (src := .fstFile (some (f, t))) (.inl rfl) v v2
    refine ⟨0, fun _ _ => ⟨.ppm m, .ppm ?_, .ppm hl (.automaton h4 h5 (.inl rfl) v2 k1)⟩⟩
    simp only [readPpm, v1, h3]
    rw [if_pos ⟨h1, h2⟩]
    exact k1
  | @ppmText s w ls f t ord mo V u Ok hl h1 h2 h3 h7 h4 h5 h6 =>
    obtain ⟨v, v1, v2⟩ := h6.vocabulary
    obtain ⟨m, V', k1, _⟩ := Ppm.read_fst_ok hl h4 h5 (src := .text (some (f, t))) (.inr rfl) v v2
    refine ⟨0, fun _ _ => ⟨.ppm m, .ppm ?_, .ppm hl (.automaton h4 h5 (.inr rfl) v2 k1)⟩⟩
    simp only [readPpm, v1, h3, h7]
    rw [if_neg (by simp [h2]), if_pos h1, Ppm.Res.pure_bind]
    exact k1
  | char h =>
    obtain ⟨m, k1, k2, k3, k4, k5⟩ := h.model
    exact ⟨0, fun _ _ => ⟨.char m, .char k1, .char k1 (by rw [k2]; exact h.closed) (by rw [k2]; exact h.acyclic)⟩⟩
  | @word s w f t h h1 h2 h3 h4 =>
    obtain ⟨b, k1, k2, k3, k4, k5⟩ := h.model
    obtain ⟨bound, hb⟩ := Word.C64_loads k1 (by rw [k3, k4]; exact h1) (by rw [k2]; exact h.closed) (by rw [k2]; exact h.acyclic)
      (by rw [k2, k3]; exact h2) (by rw [k5]; exact h3) s.wordCache
    refine ⟨bound, fun fuel hfu => ?_⟩
    obtain ⟨m, e1, e2, e3, _⟩ := hb fuel hfu
    exact ⟨.word m, .word e1, .word e2 (by rw [e3, k3, k4]; exact h4)⟩

theorem fine_loads {mcs : List (Config.ModelConfig (Storage A.D) A.C)} (h : ∀ mc ∈ mcs, Fine encode d mc) :
    ∃ bound, ∀ fuel, bound ≤ fuel → ∃ ms, Pointwise (Loads fuel d) mcs ms ∧ ∀ m ∈ ms, Served encode m := by
  induction mcs with
  | nil => exact ⟨0, fun _ _ => ⟨[], .nil, by simp⟩⟩
  | cons mc mcs ih =>
    obtain ⟨b1, h1⟩ := (h mc (by simp)).loads
    obtain ⟨b2, h2⟩ := ih (fun x hx => h x (by simp [hx]))
    refine ⟨max b1 b2, fun fuel hfu => ?_⟩
    obtain ⟨m, k1, k2⟩ := h1 fuel (by omega)
    obtain ⟨ms, k3, k4⟩ := h2 fuel (by omega)
    refine ⟨m :: ms, .cons k1 k3, fun x hx => ?_⟩
    rcases List.mem_cons.1 hx with rfl | hx
    · exact k2
    · exact k4 x hx

/-- **C109** From the files to the answers.  If the configuration is accepted, the files of every configured model are in
order, the kind of mixture is known and the address can be bound, then the program serves; every model served is one its
files describe; whatever requests have been handled, `GetLMScores` is answered (with scores, unless a bigram count has
overflowed, if a context is given or the state exists); and in every schedule of the running service, at rest every request
that reached it has been handled. -/
theorem C109_service {c : Config.ServerConfig (Config.ModelHubConfig (Storage A.D) A.C)}
    (hc : Config.serverConfigFromFlags host flags = some c) (hmix : c.hub.mixture ≠ .unknown)
    (hbind : bind c.address (Config.buildServerCredentials c) = true)
    (hfine : ∀ mc ∈ Config.asked (Storage.default A) c.hub, Fine encode d mc) :
    ∃ b0, ∀ f0, b0 ≤ f0 → ∃ b, ∀ fuel, b ≤ fuel → ∀ orderN orderV, (env A encode fuel orderN orderV).Fair →
      ∃ s, serverMain f0 (env A encode fuel orderN orderV) d host bind flags = .serves s ∧
        Pointwise (Loads f0 d) (Config.asked (Storage.default A) c.hub) s.hub.models ∧
        (∀ reqs h, serveAll (env A encode fuel orderN orderV) s.hub reqs = .ok h →
          ∀ ctx x, ∃ rep h', getLMScores (env A encode fuel orderN orderV) h ctx x = .ok (rep, h') ∧
            ((∀ m ∈ h.models, m ≠ .overflow) → ctx ≠ [] ∨ (-2 ^ 31 ≤ x ∧ x < 2 ^ 31 ∧ x < h.states.length) →
              ∃ r, rep = .ok r)) ∧
        (∀ w, WReach (env A encode fuel orderN orderV) s.hub w →
          (∀ t r, .sent t r ∈ w.log → Handleable (Config.hubConfig c.hub) w.hub r) →
          AtRest (env A encode fuel orderN orderV) w → ∀ t id, .arrived t id ∈ w.log → ∃ r a, .handled t r a ∈ w.log) := by
  obtain ⟨b0, hb0⟩ := fine_loads hfine
  refine ⟨b0, fun f0 hf0 => ?_⟩
  obtain ⟨ms, hp, hs⟩ := hb0 f0 hf0
  have hlen : (Config.asked (Storage.default A) c.hub).length = ms.length := hp.length_eq
  have hm : 0 < ms.length := by
    rw [← hlen]
    unfold Config.asked
    split
    · simp
    · next h => exact List.length_pos_iff.2 h
  have hcfg : (Config.hubConfig c.hub).mixture = .interpolation → (Config.hubConfig c.hub).weights.length ≤ ms.length := by
    intro _
    rw [← hlen]
    simp only [Config.hubConfig, List.length_map, Config.asked]
    split
    · next h => simp [h]
    · exact Nat.le_refl _
  obtain ⟨b1, hb1⟩ := C72_service hs hm
  obtain ⟨b2, hb2⟩ := C85_service hs hm
  refine ⟨max b1 b2, fun fuel hfu orderN orderV hf => ?_⟩
  have hi : initializeModels (env A encode fuel orderN orderV) ms (Config.hubConfig c.hub) =
      .ok (some (initial (env A encode fuel orderN orderV) ms (cfgWeights (Config.hubConfig c.hub)) (cfgHlen (Config.hubConfig c.hub))
            (cfgMax (Config.hubConfig c.hub)))) := by
    rw [initialize_eq hf, if_neg (show (Config.hubConfig c.hub).mixture ≠ .unknown from hmix)]
  refine ⟨{ hub := _, address := c.address, creds := Config.buildServerCredentials c, poolSize := c.poolSize, up := true },
    (C109_serves hf).2 ⟨c, ms, hc, hp, hi, hbind, rfl, rfl, rfl, rfl⟩, hp, ?_, ?_⟩
  · intro reqs h hr ctx x
    exact (hb1 fuel (by omega) orderN orderV hf (Config.hubConfig c.hub) reqs h hcfg ⟨_, hi, hr⟩).2 ctx x
  · intro w hw hsafe hq t id ha
    exact hb2 fuel (by omega) orderN orderV hf (Config.hubConfig c.hub) _ w hcfg hi hw hsafe hq t id ha

/-! ## what can go wrong, and what cannot -/

/-- **C109** Without models in the configuration the program never crashes, and serves the built-in bigram model alone exactly
when the kind of mixture is known and the address can be bound. -/
theorem C109_default (hf : env'.Fair) {c : Config.ServerConfig (Config.ModelHubConfig (Storage A.D) A.C)}
    (hc : Config.serverConfigFromFlags host flags = some c) (hm : c.hub.models = []) :
    (∀ e, serverMain fuel env' d host bind flags ≠ .dies e) ∧
    ((∃ s, serverMain fuel env' d host bind flags = .serves s) ↔
      c.hub.mixture ≠ .unknown ∧ bind c.address (Config.buildServerCredentials c) = true) ∧
    ∀ s, serverMain fuel env' d host bind flags = .serves s →
      ∃ m : Bigram.Model, s.hub.models = [.bigram m] ∧ m.utf8 = 0 :: 32 :: (List.range 26).map (fun i => (97 : Int) + (i : Nat)) ∧
        m.counts = List.replicate 28 (List.replicate 28 1) := by
  obtain ⟨m, k1, k2, k3⟩ := Bigram.C19_read_accepts_described.2 ⟨Bigram.Describes.builtin .absent, by decide⟩
  have hl : Loads fuel d (⟨.bigram, Storage.default A, A.one⟩ : Config.ModelConfig (Storage A.D) A.C) (.bigram m) := by
    refine .bigram ?_
    have : d.file (Storage.default A).vocabularyFile = .absent := if_pos rfl
    rw [this]
    have : d.file (Storage.default A).modelFile = .absent := if_pos rfl
    rw [this]
    exact k1
  have hask : Config.asked (Storage.default A) c.hub = [⟨.bigram, Storage.default A, A.one⟩] := if_pos hm
  have hp : Pointwise (Loads fuel d) (Config.asked (Storage.default A) c.hub) [.bigram m] := by
    rw [hask]; exact .cons hl .nil
  refine ⟨?_, ?_, ?_⟩
  · intro e he
    obtain ⟨c', hc', hb⟩ := (C109_dies hf).1 he
    rw [hc] at hc'; cases hc'
    exact firstBad_loaded (fun mc h => kills_not h) hp hb
  · constructor
    · rintro ⟨s, hs⟩
      obtain ⟨c', ms, hc', _, hi, hb, e1, e2, _⟩ := (C109_serves hf).1 hs
      rw [hc] at hc'; cases hc'
      refine ⟨fun hx => ?_, by rw [← e1, ← e2]; exact hb⟩
      rw [initialize_eq hf, if_pos (show (Config.hubConfig c.hub).mixture = .unknown from hx)] at hi
      cases hi
    · rintro ⟨h1, h2⟩
      exact ⟨{ hub := _, address := _, creds := _, poolSize := _, up := true }, (C109_serves hf).2 ⟨c, [.bigram m], hc, hp,
        (by rw [initialize_eq hf, if_neg (show (Config.hubConfig c.hub).mixture ≠ .unknown from h1)]), h2, rfl, rfl, rfl, rfl⟩⟩
  · intro s hs
    obtain ⟨c', ms, hc', hp', hi, _⟩ := (C109_serves hf).1 hs
    rw [hc] at hc'; cases hc'
    have : ms = [.bigram m] := by
      have := loadModels_some.2 hp'
      rw [loadModels_some.2 hp] at this
      cases this; rfl
    subst this
    rw [initialize_eq hf] at hi
    split at hi
    · cases hi
    · simp only [Except.ok.injEq, Option.some.injEq] at hi
      exact ⟨m, by rw [← hi]; rfl, k2, k3⟩

/-- **C109** With bigram models only, the program crashes exactly when the first model that does not load has files of one of
the kinds of `Bigram.Crashes`. -/
theorem C109_bigrams (hf : env'.Fair) {c : Config.ServerConfig (Config.ModelHubConfig (Storage A.D) A.C)}
    (hc : Config.serverConfigFromFlags host flags = some c) (hm : ∀ mc ∈ c.hub.models, mc.type = .bigram) :
    (∃ e, serverMain fuel env' d host bind flags = .dies e) ↔
      FirstBad fuel d (fun mc => Bigram.Crashes (d.file mc.storage.vocabularyFile) (d.file mc.storage.modelFile))
        (Config.asked (Storage.default A) c.hub) := by
  have hb : ∀ mc ∈ Config.asked (Storage.default A) c.hub, mc.type = .bigram := by
    unfold Config.asked
    split
    · intro mc h; rw [List.mem_singleton.1 h]
    · exact hm
  have hk : ∀ mc : Config.ModelConfig (Storage A.D) A.C, mc.type = .bigram →
      ((∃ e, Kills fuel d mc e) ↔ Bigram.Crashes (d.file mc.storage.vocabularyFile) (d.file mc.storage.modelFile)) := by
    rintro ⟨ty, s, w⟩ rfl
    rw [← Bigram.C19_crashes_exactly]
    exact ⟨fun ⟨e, h⟩ => (by cases h with | bigram h => exact ⟨e, h⟩), fun ⟨e, h⟩ => ⟨e, .bigram h⟩⟩
  constructor
  · rintro ⟨e, he⟩
    obtain ⟨c', hc', pre, mc, post, h1, h2, h3⟩ := (C109_dies hf).1 he
    rw [hc] at hc'; cases hc'
    exact ⟨pre, mc, post, h1, h2, (hk mc (hb mc (by rw [h1]; simp))).1 ⟨e, h3⟩⟩
  · rintro ⟨pre, mc, post, h1, h2, h3⟩
    obtain ⟨e, he⟩ := (hk mc (hb mc (by rw [h1]; simp))).2 h3
    exact ⟨e, (C109_dies hf).2 ⟨c, hc, pre, mc, post, h1, h2, he⟩⟩

/-- **C109** Two ways a PPM model takes the whole server down: an automaton file without symbols, and a text file without lines
when no vocabulary is named (here over exact arithmetic, with any counter). -/
theorem C109_ppm_false {s : Storage A.D} {w : A.C} (hn : s.modelFile ≠ []) :
    (∀ f, s.ppm.modelIsFst = true → d.fst s.modelFile = some (f, none) → Kills fuel d ⟨.ppm, s, w⟩ .ub) ∧
    (s.ppm.modelIsFst = false → d.lines s.modelFile = some [] → s.vocabularyFile = [] →
      (∀ n, d.train n [] = pure (⟨0, []⟩, Ppm.epsilonTable)) → Kills fuel d ⟨.ppm, s, w⟩ .ub) := by
  constructor
  · intro f h1 h2
    refine .ppm ?_
    simp only [readPpm, h2]
    rw [if_pos ⟨hn, h1⟩]; rfl
  · intro h1 h2 h3 h4
    refine .ppm ?_
    have hv : d.vocabulary s.vocabularyFile = none := by unfold Disk.vocabulary; rw [if_pos h3]
    simp only [readPpm, h2, h4, hv]
    rw [if_neg (by simp [h1]), if_pos hn]
    rfl

/-- **C109** A text to train from is in order if it has some character, the reserved symbol is not one of them, and the maximal
order is at least two (exact arithmetic; `CounterOk` is the contract of the OpenGrm counter). -/
theorem C109_text {d : Disk XR} {counter : Nat → List (List Int) → Fst XR} (hcnt : Ppm.CounterOk counter)
    (htrain : ∀ n ls, d.train n ls = Ppm.trainLines (counter n) ls) {s : Storage XR} {w : XR} {ls : List (List Str)}
    (ha : s.ppm.alpha ≠ .nan) (hb : s.ppm.beta ≠ .nan) (horder : s.ppm.maxOrder ≠ 1)
    (hn : s.modelFile ≠ []) (hfst : s.ppm.modelIsFst = false) (hl : d.lines s.modelFile = some ls) (hne : ∃ l ∈ ls, l ≠ [])
    (heps : Ppm.epsilonName ∉ ls.flatten) (hv : VocabularyLines d s.vocabularyFile) :
    Fine (A := Arith.xr) encode d ⟨.ppm, s, w⟩ := by
  obtain ⟨order, ho⟩ : ∃ order : Nat, (order : Int) = if s.ppm.maxOrder > 0 then s.ppm.maxOrder else 4 := by
    refine ⟨(if s.ppm.maxOrder > 0 then s.ppm.maxOrder else 4).toNat, ?_⟩
    split <;> omega
  have h2 : 2 ≤ order := by split at ho <;> omega
  obtain ⟨t, V, he, hs⟩ := Ppm.encode_symbols heps
  obtain ⟨ctxs, hct⟩ := hs.counts_ok (order := order) hcnt (by omega) hne
  obtain ⟨g, k1, k2, k3, k4⟩ := Ppm.trainFromText_ok (counter := counter order) hs he h2 hne hct
  have htf : Ppm.TrainedFrom order (Ppm.labelLines t ls) ctxs V (Ppm.arcSort (counter order (Ppm.labelLines t ls))) g :=
    ⟨hct.sorted, hs.textOk h2 hne, hs.range, fun y h1 h2 => hs.onto h1 h2, k2, k3, k4⟩
  obtain ⟨u, hu, _⟩ := htf.unigram
  have hlines : ls ≠ [] := by
    obtain ⟨l, h1, _⟩ := hne
    exact List.ne_nil_of_mem h1
  refine .ppmText (Ppm.laws_of s.ppm ha hb) hn hfst hl (f := g) (t := t) ?_ (htf.wf hu) hs.dense hv
  rw [Ppm.order_eq ho, htrain, Ppm.trainLines_eq hlines]
  exact k1

end Mozolm.System
