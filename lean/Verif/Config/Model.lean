import Verif.Hub.Model

/-!
# Model of configuration handling

`mozolm/grpc/server_helper.cc`, `mozolm/grpc/server_async_main.cc`, `mozolm/grpc/client_async_main.cc`,
the credential and default-setting parts of `mozolm/grpc/client_helper.cc`, and
`mozolm/models/model_factory.cc`.

The file system, the text-format parser and gRPC's credential objects are not in the repository: files
and the parser are functions given as parameters (`Host`); a credential object is the record of the
options it was built from.  Status messages and logging are dropped.
-/

namespace Mozolm.Config

/-- `CredentialType`, server_config.proto.  An enum field of a proto3 message may hold any other
number. -/
inductive CredentialType where
  | insecure
  | tls
  | other
  deriving DecidableEq, Repr

/-- `ServerAuthConfig.TlsConfig`, server_config.proto. -/
structure ServerTls where
  serverKey : Str := []
  serverCert : Str := []
  customCa : Str := []
  clientVerify : Bool := false
  deriving DecidableEq, Repr

/-- `ServerAuthConfig`, server_config.proto; `tls = none` is `!has_tls()`. -/
structure ServerAuth where
  type : CredentialType := .insecure
  tls : Option ServerTls := none
  deriving DecidableEq, Repr

/-- `ServerConfig`, server_config.proto, with the hub configuration abstract. -/
structure ServerConfig (H : Type) where
  hub : H
  address : Str
  auth : ServerAuth
  waitForClients : Bool
  poolSize : Int

/-- `ClientAuthConfig.TlsConfig`, client_config.proto. -/
structure ClientTls where
  targetOverride : Str := []
  clientCert : Str := []
  clientKey : Str := []
  deriving DecidableEq, Repr

/-- `ClientConfig.ClientRequestType`, client_config.proto:73-85; `other` is an unknown enum number. -/
inductive RequestType where
  | notSet
  | kBestItems
  | randgen
  | bitsPerChar
  | other
  deriving DecidableEq, Repr

/-- What the client is to do: `request_type`, `k_best`, `context_string`, `test_corpus` of client_config.proto:71-94. -/
structure Job where
  type : RequestType := .notSet
  kBest : Int := 0
  context : Str := []
  corpus : Str := []
  deriving DecidableEq, Repr

/-- `ClientConfig`, client_config.proto (`auth.tls` is `clientTls`). -/
structure ClientConfig (H D : Type) where
  server : ServerConfig H
  clientTls : Option ClientTls
  timeout : D
  job : Job := {}

/-- What the server's credentials were built from: `grpc::InsecureServerCredentials()` or
`grpc::SslServerCredentials(options)`.  `requireClient`: REQUEST_AND_REQUIRE_..._AND_VERIFY as opposed
to DONT_REQUEST. -/
inductive ServerCreds where
  | insecure
  | ssl (requireClient forceClientAuth : Bool) (rootCerts key cert : Str)
  deriving DecidableEq, Repr

/-- What the client's credentials were built from, and the `SetSslTargetNameOverride` channel argument
(`none` when not set). -/
inductive ChannelCreds where
  | insecure
  | ssl (rootCerts certChain key : Str) (targetOverride : Option Str)
  deriving DecidableEq, Repr

/-- `BuildServerCredentials(const TlsConfig&)`, server_helper.cc:31-50. -/
def sslServerCredentials (t : ServerTls) : ServerCreds :=
  .ssl t.clientVerify t.clientVerify t.customCa t.serverKey t.serverCert

/-- `BuildServerCredentials(const ServerConfig&)`, server_helper.cc:54-66. -/
def buildServerCredentials {H : Type} (c : ServerConfig H) : ServerCreds :=
  match c.auth.type, c.auth.tls with
  | .tls, some t => sslServerCredentials t
  | _, _ => .insecure

/-- `BuildChannelCredentials`, client_helper.cc:103-130. -/
def buildChannelCredentials {H D : Type} (c : ClientConfig H D) : ChannelCreds :=
  if c.server.auth.type = .tls then
    match c.server.auth.tls with
    | some st =>
      match c.clientTls with
      | some ct =>
        .ssl st.serverCert ct.clientCert ct.clientKey
          (if ct.targetOverride = [] then none else some ct.targetOverride)
      | none => .ssl st.serverCert [] [] none
    | none => .insecure
  else .insecure

/-- `kDefaultServerAddress`, server_helper.h: "localhost:50051". -/
def defaultAddress : Str := "localhost:50051".toList.map Char.toNat

/-- `InitConfigDefaults(ServerConfig*)`, server_helper.cc:123-128. -/
def serverDefaults {H : Type} (c : ServerConfig H) : ServerConfig H :=
  { c with
    waitForClients := true
    address := if c.address = [] then defaultAddress else c.address }

/-- `InitConfigDefaults(ClientConfig*)`, client_helper.cc:302-307; `kDefaultClientTimeoutSec` is 5.0. -/
def clientDefaults {H : Type} (A : Arith) (c : ClientConfig H A.D) : ClientConfig H A.D :=
  { c with
    server := serverDefaults c.server
    timeout := if A.dle c.timeout (A.ofInt 0) then A.ofInt 5 else c.timeout }

/-- The host: files (`nisaba::file::ReadBinaryFile`, `none`: error) and
`google::protobuf::TextFormat::ParseFromString` (`none`: failure). -/
structure Host (C : Type) where
  readFile : Str → Option Str
  parse : Str → Option C

/-- `InitConfigContents`, server_async_main.cc:134-145 and client_async_main.cc:83-93.
`none`: error. -/
def configContents {C : Type} (host : Host C) (file inline : Str) : Option Str :=
  if file ≠ [] then host.readFile file
  else if inline ≠ [] then some inline
  else some []

/-- Flags of the server binary, server_async_main.cc:86-113. -/
structure ServerFlags where
  config : Str := []
  configFile : Str := []
  poolSize : Int := 0
  keyFile : Str := []
  certFile : Str := []
  caFile : Str := []
  clientVerify : Bool := true

/-- An optional file flag, client_async_main.cc:112-121 and server_async_main.cc:125-129: keeps the configured value when the flag is
empty. -/
def optionalFile {C : Type} (host : Host C) (file old : Str) : Option Str :=
  if file ≠ [] then host.readFile file else some old

/-- `InitTlsConfig`, server_async_main.cc:116-131: overwrites what the flags give in the existing
section (`mutable_tls`). -/
def serverTlsFromFlags {C : Type} (host : Host C) (f : ServerFlags) (t : ServerTls) :
    Option ServerTls := do
  let key ← host.readFile f.keyFile
  let cert ← host.readFile f.certFile
  let ca ← optionalFile host f.caFile t.customCa
  some { clientVerify := f.clientVerify, serverKey := key, serverCert := cert, customCa := ca }

/-- `InitConfigFromFlags`, server_async_main.cc:148-168. `none`: the process exits with an error. -/
def serverConfigFromFlags {H : Type} (host : Host (ServerConfig H)) (f : ServerFlags) :
    Option (ServerConfig H) := do
  let text ← configContents host f.configFile f.config
  let c ← host.parse text
  let c := if f.poolSize > 0 then { c with poolSize := f.poolSize } else c
  let c := serverDefaults c
  if c.auth.type = .tls ∧ f.keyFile ≠ [] then
    let t ← serverTlsFromFlags host f (c.auth.tls.getD {})
    some { c with auth := { c.auth with tls := some t } }
  else some c

/-- Flags of the client binary, client_async_main.cc:50-74. -/
structure ClientFlags (D : Type) where
  config : Str := []
  configFile : Str := []
  timeout : D
  serverCertFile : Str := []
  targetOverride : Str := []
  clientCertFile : Str := []
  clientKeyFile : Str := []

/-- `InitTlsConfig`, client_async_main.cc:96-123. -/
def clientTlsFromFlags {H D : Type} (host : Host (ClientConfig H D)) (f : ClientFlags D)
    (c : ClientConfig H D) : Option (ClientConfig H D) := do
  let ct : ClientTls := c.clientTls.getD {}
  let cert ← host.readFile f.serverCertFile
  let st : ServerTls := c.server.auth.tls.getD {}
  let clientCert ← optionalFile host f.clientCertFile ct.clientCert
  let clientKey ← optionalFile host f.clientKeyFile ct.clientKey
  some { c with
    server := { c.server with
      auth := { type := .tls, tls := some { st with serverCert := cert } } }
    clientTls := some { targetOverride := f.targetOverride, clientCert, clientKey } }

/-- `InitConfigFromFlags`, client_async_main.cc:126-142. -/
def clientConfigFromFlags {H : Type} (A : Arith) (host : Host (ClientConfig H A.D))
    (f : ClientFlags A.D) : Option (ClientConfig H A.D) := do
  let text ← configContents host f.configFile f.config
  let c ← host.parse text
  let c := clientDefaults A { c with timeout := f.timeout }                -- :134-135
  if f.serverCertFile ≠ [] then clientTlsFromFlags host f c else some c

/-! ## the model factory -/

/-- `ModelConfig.ModelType`, model_config.proto; `other` is an unknown enum number. -/
inductive ModelType where
  | bigram
  | charNGram
  | ppm
  | wordNGram
  | other
  deriving DecidableEq, Repr

/-- `ModelConfig`, model_config.proto, with the storage abstract. -/
structure ModelConfig (S C : Type) where
  type : ModelType
  storage : S
  weight : C

/-- `ModelHubConfig`, model_config.proto. -/
structure ModelHubConfig (S C : Type) where
  models : List (ModelConfig S C)
  mixture : Hub.MixtureType
  bayesianHistoryLength : Int
  maxStates : Int

/-- What the `Read` functions of the four model classes do (`none`: error status); the component state
is tagged by `σ` itself. -/
structure Readers (S σ : Type) where
  bigram : S → Option σ
  charNGram : S → Option σ
  ppm : S → Option σ
  wordNGram : S → Option σ

variable {A : Arith} {S σ : Type}

/-- `MakeModel`, model_factory.cc:32-60. -/
def makeModel {C : Type} (R : Readers S σ) (c : ModelConfig S C) : Option σ :=
  match c.type with
  | .bigram => R.bigram c.storage
  | .charNGram => R.charNGram c.storage
  | .ppm => R.ppm c.storage
  | .wordNGram => R.wordNGram c.storage
  | .other => none

/-- The loop of `MakeModelHub`, model_factory.cc:71-75: stops at the first failure. -/
def makeModels {C : Type} (R : Readers S σ) : List (ModelConfig S C) → Option (List σ)
  | [] => some []
  | c :: cs =>
    match makeModel R c with
    | none => none
    | some m =>
      match makeModels R cs with
      | none => none
      | some ms => some (m :: ms)

/-- `ModelConfig()`: type 0, empty storage, weight 0.0. -/
def defaultModelConfig (A : Arith) (emptyStorage : S) : ModelConfig S A.C :=
  { type := .bigram, storage := emptyStorage, weight := A.one }

/-- The part of the hub configuration `InitializeModels` reads (language_model_hub.cc:77-126). -/
def hubConfig (c : ModelHubConfig S A.C) : Hub.HubConfig A.C :=
  { mixture := c.mixture
    weights := c.models.map (·.weight)
    bayesianHistoryLength := c.bayesianHistoryLength
    maxStates := c.maxStates }

/-- `MakeModelHub`, model_factory.cc:62-80.  `none`: error status. -/
def makeModelHub (R : Readers S σ) (env : Hub.Env A σ) (emptyStorage : S)
    (c : ModelHubConfig S A.C) : Except Fault (Option (Hub.Hub A σ)) :=
  let ms := if c.models.length = 0 then makeModels R [defaultModelConfig A emptyStorage]
    else makeModels R c.models
  match ms with
  | none => .ok none
  | some ms => Hub.initializeModels env ms (hubConfig c)

/-! ## `ServerHelper` -/

/-- What a successful `make_unique<ServerAsyncImpl>` is given, server_helper.cc:95-97, and whether
`BuildAndStart` succeeded (server_async_impl.cc:255-259). -/
structure Started (M : Type) where
  hub : M
  address : Str
  creds : ServerCreds
  poolSize : Int
  up : Bool

/-- `ServerHelper::server_` and `server_thread_`. -/
structure Helper (M : Type) where
  server : Option (Started M) := none
  thread : Bool := false

/-- `ServerHelper::Init`, server_helper.cc:83-98.  `make` is `MakeModelHub`, `bind` whether the gRPC
server can be built on the address with the credentials.  Result: status ok, helper. -/
def Helper.init {H M : Type} (make : H → Option M) (bind : Str → ServerCreds → Bool) (s : Helper M)
    (c : ServerConfig H) : Bool × Helper M :=
  if s.server.isSome then (false, s)
  else match make c.hub with
    | none => (false, s)
    | some m =>
      let creds := buildServerCredentials c
      let up := bind c.address creds
      (up, { s with server := some { hub := m, address := c.address, creds, poolSize := c.poolSize, up } })

/-- `ServerHelper::Run`, server_helper.cc:100-110, up to the point where the worker thread is started. -/
def Helper.run {M : Type} (s : Helper M) : Bool × Helper M :=
  if s.server.isNone then (false, s) else (true, { s with thread := true })

/-- `ServerHelper::Shutdown`, server_helper.cc:112-121. -/
def Helper.shutdown {M : Type} (s : Helper M) : Helper M :=
  if s.server.isSome then { s with server := none, thread := false } else s

/-- `RunServer`, server_helper.cc:130-137. -/
def runServer {H M : Type} (make : H → Option M) (bind : Str → ServerCreds → Bool)
    (c : ServerConfig H) : Bool × Helper M :=
  let r := Helper.init make bind {} c
  if r.1 = false then r
  else if c.waitForClients then r.2.run
  else (true, r.2)

end Mozolm.Config
