import Verif.Config.Model
import Verif.Hub.Denote
import Verif.Hub.Demo

/-!
# C47, C48, C53, C58: credentials, time-out, model factory, start-up

Quantified over every configuration, flag setting, file system and parser.
-/

namespace Mozolm.Config

/-! ## C47 -/

/-- **C47** (server) TLS requested with a TLS section: the server's credentials are TLS ones with the
configured key, certificate and CA, and a client certificate is demanded exactly when `client_verify`
is set. -/
theorem C47_server_tls {H : Type} {c : ServerConfig H} {t : ServerTls} (h1 : c.auth.type = .tls)
    (h2 : c.auth.tls = some t) :
    ∃ req force, buildServerCredentials c = .ssl req force t.customCa t.serverKey t.serverCert ∧
      (req = true ↔ t.clientVerify = true) ∧ (force = true ↔ t.clientVerify = true) := by
  refine ⟨t.clientVerify, t.clientVerify, ?_, Iff.rfl, Iff.rfl⟩
  simp only [buildServerCredentials, h1, h2, sslServerCredentials]

/-- **C47** (client) TLS requested with a TLS section for the server: the channel uses TLS, trusting
exactly the configured server certificate, and presents the client certificate and key configured for
the client (none if there is no client section). -/
theorem C47_client_tls {H D : Type} {c : ClientConfig H D} {t : ServerTls}
    (h1 : c.server.auth.type = .tls) (h2 : c.server.auth.tls = some t) :
    ∃ chain key override, buildChannelCredentials c = .ssl t.serverCert chain key override ∧
      (∀ ct, c.clientTls = some ct → chain = ct.clientCert ∧ key = ct.clientKey) ∧
      (c.clientTls = none → chain = [] ∧ key = []) ∧
      (∀ o, override = some o ↔ o ≠ [] ∧ ∃ ct, c.clientTls = some ct ∧ ct.targetOverride = o) := by
  cases hc : c.clientTls with
  | none =>
    refine ⟨[], [], none, ?_, ?_, fun _ => ⟨rfl, rfl⟩, ?_⟩
    · simp only [buildChannelCredentials, h1, if_true, h2, hc]
    · intro ct h; cases h
    · intro o
      constructor
      · intro h; cases h
      · rintro ⟨_, ct, h, _⟩; cases h
  | some ct =>
    refine ⟨ct.clientCert, ct.clientKey,
      if ct.targetOverride = [] then none else some ct.targetOverride, ?_, ?_, ?_, ?_⟩
    · simp only [buildChannelCredentials, h1, if_true, h2, hc]
    · intro ct' h; cases h; exact ⟨rfl, rfl⟩
    · intro h; cases h
    · intro o
      constructor
      · intro h
        by_cases e : ct.targetOverride = []
        · rw [if_pos e] at h; cases h
        · rw [if_neg e] at h
          cases h
          exact ⟨e, ct, rfl, rfl⟩
      · rintro ⟨h, ct', h', h''⟩
        cases h'
        rw [if_neg (by rw [h'']; exact h), h'']

/-- **C47** insecure credentials are used on the server exactly when TLS was not requested or has no
section; the client decides the same way from the same authentication settings, so the two sides never
disagree. -/
theorem C47_insecure_iff {H D : Type} (c : ServerConfig H) (cl : ClientConfig H D)
    (hs : cl.server.auth = c.auth) :
    (buildServerCredentials c = .insecure ↔ (c.auth.type ≠ .tls ∨ c.auth.tls = none)) ∧
    (buildChannelCredentials cl = .insecure ↔ buildServerCredentials c = .insecure) := by
  rcases hc : c.auth with ⟨ty, tl⟩
  rw [hc] at hs
  cases ty <;> cases tl <;> cases hct : cl.clientTls <;>
    simp [buildServerCredentials, buildChannelCredentials, sslServerCredentials, hs, hc, hct]

/-- **C47** is false as stated: with TLS requested and no TLS section both sides silently use insecure
credentials. -/
theorem C47_false : ∃ (c : ServerConfig Unit) (cl : ClientConfig Unit Unit),
    c.auth.type = .tls ∧ cl.server = c ∧ buildServerCredentials c = .insecure ∧
      buildChannelCredentials cl = .insecure := by
  refine ⟨{ hub := (), address := [1], auth := { type := .tls }, waitForClients := true, poolSize := 0 },
    { server := { hub := (), address := [1], auth := { type := .tls }, waitForClients := true
                  poolSize := 0 }, clientTls := none, timeout := () }, rfl, rfl, rfl, rfl⟩

/-- The text of the configuration a binary runs with: the contents of the configuration file when one is
named (which must be readable), otherwise the configuration given inline. -/
def Configured {C : Type} (host : Host C) (file inline text : Str) : Prop :=
  (file ≠ [] → host.readFile file = some text) ∧ (file = [] → text = inline)

theorem configured_iff {C : Type} {host : Host C} {file inline text : Str} :
    Configured host file inline text ↔ configContents host file inline = some text := by
  by_cases h : file = []
  · by_cases h2 : inline = [] <;> simp [Configured, configContents, h, h2, eq_comm]
  · simp [Configured, configContents, h]

/-- **C47** (client binary) With `--tls_server_cert_file` given, start-up either fails or the channel
uses TLS trusting exactly the contents of that file — whatever the configuration says; the client
certificate and key are those of the files named by flags, or else those of the configuration. -/
theorem C47_client_flag {H : Type} {A : Arith} {host : Host (ClientConfig H A.D)}
    {f : ClientFlags A.D} {c : ClientConfig H A.D} (hf : f.serverCertFile ≠ [])
    (he : clientConfigFromFlags A host f = some c) :
    ∃ text c0 cert chain key o, Configured host f.configFile f.config text ∧
      host.parse text = some c0 ∧ host.readFile f.serverCertFile = some cert ∧
      (f.clientCertFile ≠ [] → host.readFile f.clientCertFile = some chain) ∧
      (f.clientCertFile = [] → chain = (c0.clientTls.map (·.clientCert)).getD []) ∧
      (f.clientKeyFile ≠ [] → host.readFile f.clientKeyFile = some key) ∧
      (f.clientKeyFile = [] → key = (c0.clientTls.map (·.clientKey)).getD []) ∧
      (o = none ↔ f.targetOverride = []) ∧ (∀ x, o = some x → x = f.targetOverride) ∧
      buildChannelCredentials c = .ssl cert chain key o := by
  simp only [clientConfigFromFlags, Option.bind_eq_bind, Option.bind_eq_some_iff, ne_eq, hf,
    not_false_eq_true, if_true, clientTlsFromFlags] at he
  obtain ⟨text, htx, c0, hc0, cert, hcert, cc, hcc, ck, hck, he⟩ := he
  cases he
  have e : (clientDefaults A { c0 with timeout := f.timeout }).clientTls = c0.clientTls := rfl
  rw [e] at hcc hck
  refine ⟨text, c0, cert, cc, ck, _, configured_iff.2 htx, hc0, hcert, ?_, ?_, ?_, ?_, ?_, ?_,
    by simp only [buildChannelCredentials, if_true]; rfl⟩
  · exact fun h => by rwa [optionalFile, if_pos h] at hcc
  · intro h
    rw [optionalFile, if_neg (by simp [h])] at hcc
    cases hcc
    cases c0.clientTls <;> rfl
  · exact fun h => by rwa [optionalFile, if_pos h] at hck
  · intro h
    rw [optionalFile, if_neg (by simp [h])] at hck
    cases hck
    cases c0.clientTls <;> rfl
  · by_cases h : f.targetOverride = [] <;> simp [h]
  · intro x hx
    split at hx
    · cases hx
    · exact (Option.some.inj hx).symm

/-- **C47** (server binary) When the configuration requests TLS and `--tls_server_key_file` is given,
start-up either fails or the server uses TLS with the contents of the two files, and demands a client
certificate exactly when `--tls_client_verify` is set; the CA is that of the file named by a flag, or else
the configured one. -/
theorem C47_server_flag {H : Type} {host : Host (ServerConfig H)} {f : ServerFlags}
    {c : ServerConfig H} (hf : f.keyFile ≠ []) (he : serverConfigFromFlags host f = some c)
    (ht : c.auth.type = .tls) :
    ∃ text c0 key cert ca, Configured host f.configFile f.config text ∧
      host.parse text = some c0 ∧ c0.auth.type = .tls ∧
      host.readFile f.keyFile = some key ∧ host.readFile f.certFile = some cert ∧
      (f.caFile ≠ [] → host.readFile f.caFile = some ca) ∧
      (f.caFile = [] → ca = (c0.auth.tls.map (·.customCa)).getD []) ∧
      buildServerCredentials c = .ssl f.clientVerify f.clientVerify ca key cert := by
  simp only [serverConfigFromFlags, Option.bind_eq_bind, Option.bind_eq_some_iff] at he
  obtain ⟨text, htx, c0, hc0, he⟩ := he
  have ha : (serverDefaults (if f.poolSize > 0 then { c0 with poolSize := f.poolSize } else c0)).auth
      = c0.auth := by split <;> rfl
  generalize hc1 : serverDefaults (if f.poolSize > 0 then { c0 with poolSize := f.poolSize } else c0)
    = c1 at he ha
  by_cases hx : c1.auth.type = .tls
  · rw [if_pos ⟨hx, hf⟩] at he
    simp only [Option.bind_eq_some_iff, serverTlsFromFlags, Option.bind_eq_bind] at he
    obtain ⟨t, ⟨key, hk, cert, hce, ca, hca, ht'⟩, he⟩ := he
    cases he
    cases ht'
    refine ⟨text, c0, key, cert, ca, configured_iff.2 htx, hc0, ha ▸ hx, hk, hce, ?_, ?_, ?_⟩
    · intro hne
      rwa [optionalFile, if_pos hne] at hca
    · intro h
      rw [optionalFile, if_neg (by simp [h]), ha] at hca
      cases hca
      cases c0.auth.tls <;> rfl
    · simp only [buildServerCredentials, hx, sslServerCredentials]
  · rw [if_neg (fun h => hx h.1)] at he
    cases he
    exact absurd ht hx

/-- Beyond C47: the TLS flags of the server binary have no effect unless the *configuration* asks for
TLS; the server then runs insecure although key and certificate were given on the command line. -/
theorem C47_server_flag_ignored : ∃ (host : Host (ServerConfig Unit)) (f : ServerFlags)
    (c : ServerConfig Unit), f.keyFile ≠ [] ∧ f.certFile ≠ [] ∧
      serverConfigFromFlags host f = some c ∧ buildServerCredentials c = .insecure := by
  refine ⟨{ readFile := fun s => some s
            parse := fun _ => some { hub := (), address := [], auth := {}, waitForClients := false
                                     poolSize := 0 } },
    { keyFile := [1], certFile := [2] }, _, by simp, by simp, rfl, rfl⟩

/-! ## C48 -/

/-- **C48** (library) `InitConfigDefaults` keeps a time-out that is not `≤ 0` and otherwise sets five
seconds; it changes nothing else but the server's address (when empty) and `wait_for_clients`. -/
theorem C48_defaults {H : Type} (A : Arith) (c : ClientConfig H A.D) :
    (A.dle c.timeout (A.ofInt 0) = false → (clientDefaults A c).timeout = c.timeout) ∧
    (A.dle c.timeout (A.ofInt 0) = true → (clientDefaults A c).timeout = A.ofInt 5) ∧
    (clientDefaults A c).clientTls = c.clientTls ∧
    (clientDefaults A c).server.auth = c.server.auth ∧
    (clientDefaults A c).server.hub = c.server.hub ∧
    (c.server.address ≠ [] → (clientDefaults A c).server.address = c.server.address) := by
  refine ⟨fun h => ?_, fun h => ?_, rfl, rfl, rfl, fun h => ?_⟩
  · simp [clientDefaults, h]
  · simp [clientDefaults, h]
  · simp [clientDefaults, serverDefaults, h]

/-- **C48** (client binary) The time-out used is the flag's when positive and five seconds otherwise:
it never depends on the configured one. -/
theorem C48_flag_wins {H : Type} {A : Arith} {host : Host (ClientConfig H A.D)}
    {f : ClientFlags A.D} {c : ClientConfig H A.D}
    (he : clientConfigFromFlags A host f = some c) :
    c.timeout = if A.dle f.timeout (A.ofInt 0) then A.ofInt 5 else f.timeout := by
  simp only [clientConfigFromFlags, Option.bind_eq_bind, Option.bind_eq_some_iff] at he
  obtain ⟨text, _, c0, _, he⟩ := he
  split at he
  · simp only [clientTlsFromFlags, Option.bind_eq_bind, Option.bind_eq_some_iff] at he
    obtain ⟨cert, _, cc, _, ck, _, he⟩ := he
    cases he
    rfl
  · cases he
    rfl

/-- **C48** is false for the command line client: a configured time-out of 30 seconds is replaced by
five when the flag has its default value 0 (arithmetic: any in which `0 ≤ 0` and `30 ≠ 5`, `¬ 30 ≤ 0`). -/
theorem C48_false {A : Arith} (h0 : A.dle (A.ofInt 0) (A.ofInt 0) = true)
    (h30 : A.dle (A.ofInt 30) (A.ofInt 0) = false) (hne : A.ofInt 30 ≠ A.ofInt 5) :
    ∃ (host : Host (ClientConfig Unit A.D)) (f : ClientFlags A.D) (c0 c : ClientConfig Unit A.D),
      f.timeout = A.ofInt 0 ∧ host.parse f.config = some c0 ∧
      A.dle c0.timeout (A.ofInt 0) = false ∧
      clientConfigFromFlags A host f = some c ∧ c.timeout ≠ c0.timeout := by
  let c0 : ClientConfig Unit A.D :=
    { server := { hub := (), address := [1], auth := {}, waitForClients := true, poolSize := 0 }
      clientTls := none
      timeout := A.ofInt 30 }
  refine ⟨{ readFile := fun _ => none, parse := fun _ => some c0 }, { config := [7], timeout := A.ofInt 0 },
    c0, clientDefaults A { c0 with timeout := A.ofInt 0 }, rfl, rfl, h30, rfl, ?_⟩
  simp only [clientDefaults, h0, if_true]
  exact fun h => hne h.symm

/-! ## C53 -/

/-- What "a model was built as configured" means: the reader of the configured type was given the
configured storage and produced it. -/
inductive Built {S σ C : Type} (R : Readers S σ) : ModelConfig S C → σ → Prop
  | bigram {s w m} : R.bigram s = some m → Built R ⟨.bigram, s, w⟩ m
  | charNGram {s w m} : R.charNGram s = some m → Built R ⟨.charNGram, s, w⟩ m
  | ppm {s w m} : R.ppm s = some m → Built R ⟨.ppm, s, w⟩ m
  | wordNGram {s w m} : R.wordNGram s = some m → Built R ⟨.wordNGram, s, w⟩ m

/-- The models asked for: those configured, or one default bigram model. -/
def asked {A : Arith} {S : Type} (emptyStorage : S) (c : ModelHubConfig S A.C) :
    List (ModelConfig S A.C) :=
  if c.models = [] then [⟨.bigram, emptyStorage, A.one⟩] else c.models

variable {A : Arith} {S σ : Type} {R : Readers S σ} {env : Hub.Env A σ}

theorem built_iff {C : Type} (c : ModelConfig S C) (m : σ) : Built R c m ↔ makeModel R c = some m := by
  rcases c with ⟨t, s, w⟩
  constructor
  · intro h; cases h <;> assumption
  · intro h
    cases t
    · exact .bigram h
    · exact .charNGram h
    · exact .ppm h
    · exact .wordNGram h
    · simp [makeModel] at h

theorem makeModels_some {C : Type} (cs : List (ModelConfig S C)) (ms : List σ) :
    makeModels R cs = some ms ↔ Pointwise (Built R) cs ms := by
  induction cs generalizing ms with
  | nil =>
    constructor
    · intro h; cases h; exact .nil
    · intro h; cases h; rfl
  | cons c cs ih =>
    constructor
    · intro h
      simp only [makeModels] at h
      split at h
      · cases h
      · next m hm =>
        split at h
        · cases h
        · next ms' hms =>
          cases h
          exact .cons ((built_iff c m).2 hm) ((ih ms').1 hms)
    · intro h
      cases h with
      | @cons _ m _ ms' h1 h2 =>
        simp only [makeModels, (built_iff c m).1 h1, (ih ms').2 h2]

theorem makeModels_none {C : Type} (cs : List (ModelConfig S C)) :
    makeModels R cs = none ↔ ∃ c ∈ cs, ∀ m, ¬ Built R c m := by
  induction cs with
  | nil => simp [makeModels]
  | cons c cs ih =>
    simp only [makeModels]
    cases hm : makeModel R c with
    | none =>
      simp only [List.mem_cons, true_iff]
      refine ⟨c, .inl rfl, fun m hb => ?_⟩
      rw [built_iff, hm] at hb; cases hb
    | some m =>
      cases hms : makeModels R cs with
      | none =>
        simp only [List.mem_cons, true_iff]
        obtain ⟨c', h1, h2⟩ := ih.1 hms
        exact ⟨c', .inr h1, h2⟩
      | some ms =>
        simp only [List.mem_cons, reduceCtorEq, false_iff]
        rintro ⟨c', h1 | h1, h2⟩
        · subst h1
          exact h2 m ((built_iff _ m).2 hm)
        · have := ih.2 ⟨c', h1, h2⟩
          rw [hms] at this; cases this

theorem asked_eq (e : S) (c : ModelHubConfig S A.C) :
    (if c.models.length = 0 then makeModels R [defaultModelConfig A e] else makeModels R c.models) =
      makeModels R (asked e c) := by
  by_cases h : c.models = []
  · simp only [h, List.length_nil, if_true, asked, defaultModelConfig]
  · rw [if_neg (by rw [List.length_eq_zero_iff]; exact h), asked, if_neg h]

/-- **C53** `MakeModelHub` never runs into undefined behaviour; when it succeeds, the hub has exactly
one component per model asked for, in order, each built by the reader of its type from its storage, and
its first state holds each component's start state; the number of states kept is the configured one (ten
thousand when fewer than ten are asked for), and the Bayesian history length is the configured one when
two or more models are interpolated and zero otherwise. -/
theorem C53_builds (hf : env.Fair) {e : S} {c : ModelHubConfig S A.C} {h : Hub.Hub A σ}
    (he : makeModelHub R env e c = .ok (some h)) :
    Pointwise (Built R) (asked e c) h.models ∧
      (∃ st, h.states = [st] ∧ st.modelStates = h.models.map env.start) ∧
      (h.max : Int) = (if c.maxStates < 10 then 10000 else c.maxStates) ∧
      (h.hlen : Int) = (if c.mixture = .interpolation ∧ 2 ≤ c.models.length then
        max c.bayesianHistoryLength 0 else 0) := by
  simp only [makeModelHub, asked_eq] at he
  split at he
  · cases he
  · next ms hms =>
    rw [Hub.initialize_eq hf] at he
    split at he
    · cases he
    · cases he
      refine ⟨(makeModels_some _ _).1 hms, ⟨_, rfl, ?_⟩, ?_, ?_⟩
      · simp [Hub.initial, Hub.HubState.mk']
      · simp only [Hub.initial, Hub.cfgMax, hubConfig]
        change (((if c.maxStates < 10 then 10000 else c.maxStates.toNat) : Nat) : Int) = _
        by_cases h10 : c.maxStates < 10
        · simp [h10]
        · rw [if_neg h10, if_neg h10]; omega
      · simp only [Hub.initial, Hub.cfgHlen, hubConfig, List.length_map]
        split <;> omega

/-- **C53** it fails exactly when some model cannot be built or the mixture type is unknown. -/
theorem C53_fails_iff (hf : env.Fair) (e : S) (c : ModelHubConfig S A.C) :
    makeModelHub R env e c = .ok none ↔
      (∃ mc ∈ asked e c, ∀ m, ¬ Built R mc m) ∨ c.mixture = .unknown := by
  simp only [makeModelHub, asked_eq]
  cases hms : makeModels R (asked e c) with
  | none => simp only [true_iff]; exact .inl ((makeModels_none _).1 hms)
  | some ms =>
    have hno : ¬ ∃ mc ∈ asked e c, ∀ m, ¬ Built R mc m := by
      intro h; rw [(makeModels_none _).2 h] at hms; cases hms
    simp only [Hub.initialize_eq hf, hubConfig, hno, false_or]
    split
    · next h => simp [h]
    · next h => simp [h]

/-- **C53** there is no third outcome. -/
theorem C53_total (hf : env.Fair) (e : S) (c : ModelHubConfig S A.C) :
    makeModelHub R env e c = .ok none ∨ ∃ h, makeModelHub R env e c = .ok (some h) := by
  simp only [makeModelHub, asked_eq]
  cases makeModels R (asked e c) with
  | none => exact .inl rfl
  | some ms =>
    simp only [Hub.initialize_eq hf]
    split
    · exact .inl rfl
    · exact .inr ⟨_, rfl⟩

/-- **C53** with no mixture requested, every answer of the hub, after any history of calls, is exactly
the first component's answer at its part of the state, whatever the other components are. -/
theorem C53_first_only (hf : env.Fair) {models : List σ} {cfg : Hub.HubConfig A.C}
    {calls : List Hub.Call} {h h' : Hub.Hub A σ} {r : Option (LMScores A.D)} {s : Int}
    (hr : Hub.Reach env models cfg calls h) (hmix : cfg.mixture = .none)
    (he : Hub.extractLMScores env h s = .ok (r, h')) :
    (h.valid s = false ∧ r = none) ∨
      ∃ st m ms, h.states[s.toNat]? = some st ∧ h.models = m :: ms ∧
        r = (env.extract m (st.modelState 0)).1 := by
  have g := Hub.reach_good hf hr
  have hw : h.weights.length < 2 := by
    rw [g.const.weights]
    simp [Hub.initial, Hub.cfgWeights, hmix]
  simp only [Hub.extractLMScores] at he
  cases hv : h.valid s with
  | false =>
    simp only [hv, Bool.not_false, if_true, Except.ok.injEq, Prod.mk.injEq] at he
    exact .inl ⟨rfl, he.1.symm⟩
  | true =>
    simp only [hv, Bool.not_true, Bool.false_eq_true, if_false] at he
    split at he
    · cases he
    · next st hst =>
      rw [if_pos hw] at he
      split at he
      · cases he
      · next m ms hm =>
        simp only [Except.ok.injEq, Prod.mk.injEq] at he
        exact .inr ⟨st, m, ms, hst, hm, he.1.symm⟩

/-- C53 is not vacuous: with no models configured and a bigram reader that accepts the empty storage, a
hub with one component is built. -/
example : ∃ h, makeModelHub (A := Arith.unit) (σ := Unit)
    { bigram := fun s => if s = 0 then some () else none, charNGram := fun _ => none
      ppm := fun _ => none, wordNGram := fun _ => none } Hub.Demo.counter (0 : Nat)
    { models := [], mixture := .none, bayesianHistoryLength := 0, maxStates := 0 } = .ok (some h) ∧
    h.models = [()] ∧ h.max = 10000 := ⟨_, rfl, rfl, rfl⟩

/-! ## C58: starting the server -/

variable {H M : Type} {make : H → Option M} {bind : Str → ServerCreds → Bool}

/-- A helper history: `Init` (any configuration), `Run`, `Shutdown` in any order. -/
inductive Op (H : Type) where
  | init (c : ServerConfig H)
  | run
  | shutdown

/-- One operation on the helper. -/
def apply (make : H → Option M) (bind : Str → ServerCreds → Bool) (s : Helper M) : Op H → Helper M
  | .init c => (s.init make bind c).2
  | .run => s.run.2
  | .shutdown => s.shutdown

/-- The server was started with the hub, address, credentials and pool size of configuration `c`. -/
def StartedFrom (make : H → Option M) (bind : Str → ServerCreds → Bool) (c : ServerConfig H)
    (x : Started M) : Prop :=
  make c.hub = some x.hub ∧ x.address = c.address ∧ x.creds = buildServerCredentials c ∧
    x.poolSize = c.poolSize ∧ x.up = bind c.address (buildServerCredentials c)

/-- **C58** After any history of operations, a server present in the helper was built from one
configuration passed to `Init`: its models, address, credentials and pool size are those of that
configuration. -/
theorem C58_as_configured (ops : List (Op H)) :
    ∀ x, (ops.foldl (apply make bind) {}).server = some x →
      ∃ c, Op.init c ∈ ops ∧ StartedFrom make bind c x := by
  suffices ∀ (s : Helper M) (pre : List (Op H)),
      (∀ x, s.server = some x → ∃ c, Op.init c ∈ pre ∧ StartedFrom make bind c x) →
      ∀ x, (ops.foldl (apply make bind) s).server = some x →
        ∃ c, Op.init c ∈ pre ++ ops ∧ StartedFrom make bind c x by
    simpa using this {} [] (by intro x h; cases h)
  induction ops with
  | nil => intro s pre hs x hx; simpa using hs x hx
  | cons o ops ih =>
    intro s pre hs x hx
    have := ih (apply make bind s o) (pre ++ [o]) ?_ x hx
    · simpa using this
    · intro y hy
      have old : s.server = some y → ∃ c, Op.init c ∈ pre ++ [o] ∧ StartedFrom make bind c y := by
        intro h
        obtain ⟨c, h1, h2⟩ := hs y h
        exact ⟨c, by simp [h1], h2⟩
      cases o with
      | init c =>
        simp only [apply, Helper.init] at hy
        split at hy
        · exact old hy
        · split at hy
          · exact old hy
          · next m hm =>
            simp only [Option.some.injEq] at hy
            subst hy
            exact ⟨c, by simp, hm, rfl, rfl, rfl, rfl⟩
      | run =>
        simp only [apply, Helper.run] at hy
        split at hy <;> exact old hy
      | shutdown =>
        simp only [apply, Helper.shutdown] at hy
        split at hy
        · cases hy
        · exact old hy

/-- **C58** `Init` on an active helper is refused and changes nothing; `Run` without a server is
refused. -/
theorem C58_refused (s : Helper M) :
    (s.server.isSome = true → ∀ c : ServerConfig H, s.init make bind c = (false, s)) ∧
    (s.server = none → s.run = (false, s)) := by
  refine ⟨fun h c => by simp only [Helper.init, h, if_true], fun h => ?_⟩
  simp only [Helper.run, h, Option.isNone_none, if_true]

/-- **C58** `RunServer` starts serving only if the models were made and the server could be bound. -/
theorem C58_runServer {c : ServerConfig H} (h : (runServer make bind c).2.thread = true) :
    ∃ m, make c.hub = some m ∧ bind c.address (buildServerCredentials c) = true := by
  simp only [runServer, Helper.init, Option.isSome_none, Bool.false_eq_true, if_false] at h
  cases hm : make c.hub with
  | none => simp [hm] at h
  | some m =>
    refine ⟨m, rfl, ?_⟩
    cases hb : bind c.address (buildServerCredentials c) with
    | true => rfl
    | false => simp [hm, hb] at h

/-- **C58** What the server binary runs with: it refuses to start exactly when the configuration cannot be
read or parsed, or the configuration asks for TLS, a key file is named and one of the named files cannot
be read. -/
theorem C58_flags_fail {host : Host (ServerConfig H)} {f : ServerFlags} :
    serverConfigFromFlags host f = none ↔
      (∀ text c0, ¬ (Configured host f.configFile f.config text ∧ host.parse text = some c0)) ∨
      ∃ text c0, Configured host f.configFile f.config text ∧ host.parse text = some c0 ∧
        c0.auth.type = .tls ∧ f.keyFile ≠ [] ∧
        (host.readFile f.keyFile = none ∨ host.readFile f.certFile = none ∨
          (f.caFile ≠ [] ∧ host.readFile f.caFile = none)) := by
  simp only [configured_iff]
  simp only [serverConfigFromFlags, Option.bind_eq_bind]
  cases htx : configContents host f.configFile f.config with
  | none => simp
  | some text =>
    cases hc0 : host.parse text with
    | none =>
      simp only [Option.bind_some, hc0, Option.bind_none, Option.some.injEq, true_iff]
      refine .inl ?_
      rintro _ _ ⟨rfl, h⟩
      rw [hc0] at h
      cases h
    | some c0 =>
      simp only [Option.bind_some, hc0, Option.some.injEq]
      have ha : (serverDefaults (if f.poolSize > 0 then { c0 with poolSize := f.poolSize } else c0)).auth
          = c0.auth := by split <;> rfl
      rw [ha]
      constructor
      · intro h
        refine .inr ⟨text, c0, rfl, hc0, ?_⟩
        split at h
        · next hx =>
          refine ⟨hx.1, hx.2, ?_⟩
          simp only [Option.bind_eq_none_iff, serverTlsFromFlags, Option.bind_eq_bind] at h
          cases hk : host.readFile f.keyFile with
          | none => exact .inl rfl
          | some key =>
            cases hce : host.readFile f.certFile with
            | none => exact .inr (.inl rfl)
            | some cert =>
              refine .inr (.inr ?_)
              by_cases hca : f.caFile = []
              · simp [hk, hce, optionalFile, hca] at h
              · refine ⟨hca, ?_⟩
                cases hr : host.readFile f.caFile with
                | none => rfl
                | some ca => simp [hk, hce, optionalFile, hca, hr] at h
        · cases h
      · rintro (h | ⟨t', c', rfl, hc', h1, h2, h3⟩)
        · exact absurd ⟨rfl, hc0⟩ (h text c0)
        · rw [hc0] at hc'
          cases hc'
          rw [if_pos ⟨h1, h2⟩]
          rcases h3 with h3 | h3 | ⟨h4, h3⟩
          · simp [serverTlsFromFlags, h3]
          · cases hk : host.readFile f.keyFile <;> simp [serverTlsFromFlags, h3]
          · cases hk : host.readFile f.keyFile <;> cases hce : host.readFile f.certFile <;>
              simp [serverTlsFromFlags, optionalFile, h4, h3]

/-- **C58** and otherwise runs with the models and authentication type configured, the configured address
(or the default one), the pool size of the flag when positive and the configured one otherwise, and stays
up waiting for clients; the TLS section is the configured one unless a key file is named. -/
theorem C58_flags {host : Host (ServerConfig H)} {f : ServerFlags} {c : ServerConfig H}
    (he : serverConfigFromFlags host f = some c) :
    ∃ text c0, Configured host f.configFile f.config text ∧ host.parse text = some c0 ∧
      c.hub = c0.hub ∧
      (c0.address ≠ [] → c.address = c0.address) ∧ (c0.address = [] → c.address = "localhost:50051".toList.map Char.toNat) ∧
      (0 < f.poolSize → c.poolSize = f.poolSize) ∧ (f.poolSize ≤ 0 → c.poolSize = c0.poolSize) ∧
      c.waitForClients = true ∧ c.auth.type = c0.auth.type ∧
      (f.keyFile = [] → c.auth.tls = c0.auth.tls) := by
  simp only [serverConfigFromFlags, Option.bind_eq_bind, Option.bind_eq_some_iff] at he
  obtain ⟨text, htx, c0, hc0, he⟩ := he
  have key : ∀ c1 : ServerConfig H,
      c1 = serverDefaults (if f.poolSize > 0 then { c0 with poolSize := f.poolSize } else c0) →
      c1.hub = c0.hub ∧ (c0.address ≠ [] → c1.address = c0.address) ∧
      (c0.address = [] → c1.address = defaultAddress) ∧
      (0 < f.poolSize → c1.poolSize = f.poolSize) ∧ (f.poolSize ≤ 0 → c1.poolSize = c0.poolSize) ∧
      c1.waitForClients = true ∧ c1.auth.type = c0.auth.type ∧ c1.auth.tls = c0.auth.tls := by
    rintro _ rfl
    by_cases hp : 0 < f.poolSize
    · rw [if_pos hp]
      refine ⟨rfl, fun h => by simp [serverDefaults, h], fun h => by simp [serverDefaults, h],
        fun _ => rfl, fun h => ?_, rfl, rfl, rfl⟩
      omega
    · rw [if_neg hp]
      exact ⟨rfl, fun h => by simp [serverDefaults, h], fun h => by simp [serverDefaults, h],
        fun h => absurd h hp, fun _ => rfl, rfl, rfl, rfl⟩
  obtain ⟨k1, k2, k3, k4, k5, k6, k7, k8⟩ := key _ rfl
  generalize serverDefaults (if f.poolSize > 0 then { c0 with poolSize := f.poolSize } else c0) = c1
    at he k1 k2 k3 k4 k5 k6 k7 k8
  refine ⟨text, c0, configured_iff.2 htx, hc0, ?_⟩
  split at he
  · next hx =>
    simp only [Option.bind_eq_some_iff] at he
    obtain ⟨t, _, he⟩ := he
    cases he
    exact ⟨k1, k2, k3, k4, k5, k6, k7, fun h => absurd h hx.2⟩
  · cases he
    exact ⟨k1, k2, k3, k4, k5, k6, k7, fun _ => k8⟩

/-- **C58** `RunServer` on a configuration from flags serves (its worker thread runs) exactly when the
models can be made and the address bound. -/
theorem C58_flags_serve {host : Host (ServerConfig H)} {f : ServerFlags} {c : ServerConfig H}
    (he : serverConfigFromFlags host f = some c) :
    (runServer make bind c).2.thread = true ↔
      (∃ m, make c.hub = some m) ∧ bind c.address (buildServerCredentials c) = true := by
  obtain ⟨_, _, _, _, _, _, _, _, _, hw, _⟩ := C58_flags he
  simp only [runServer, Helper.init, Option.isSome_none, Bool.false_eq_true, if_false]
  cases hm : make c.hub with
  | none => simp
  | some m =>
    cases hb : bind c.address (buildServerCredentials c) with
    | true => simp [hw, Helper.run]
    | false => simp

/-- **C58** is false of `ServerHelper` itself: after an `Init` that failed because the address could not
be bound, the helper counts as active — `Run` is accepted and a second `Init` is refused. -/
theorem C58_false : ∃ (make : Unit → Option Unit) (bind : Str → ServerCreds → Bool)
    (c : ServerConfig Unit), let r := Helper.init make bind {} c
    r.1 = false ∧ r.2.run.1 = true ∧ ∀ bind' c', (r.2.init make bind' c').1 = false := by
  refine ⟨fun _ => some (), fun _ _ => false,
    { hub := (), address := [1], auth := {}, waitForClients := true, poolSize := 0 }, rfl, rfl, ?_⟩
  intro bind' c'
  rfl

/-- A binding that succeeds: the server runs with the configured TLS credentials. -/
example : (runServer (fun _ : Unit => some ()) (fun _ _ => true)
    { hub := (), address := [1]
      auth := { type := .tls, tls := some { serverKey := [5], serverCert := [6], clientVerify := true } }
      waitForClients := true, poolSize := 3 }).2.server.map (·.creds) =
    some (.ssl true true [] [5] [6]) := rfl

end Mozolm.Config
