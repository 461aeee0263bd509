import Verif.Props.Startup
import Verif.Props.ProgramRun
import Verif.Props.PpmMemoryRead

/-!
# C110: the two programs together

The server program is given a text to train from, the client program a job; what the client prints is a function of the
two texts (exact arithmetic).
-/

namespace Mozolm.System
open Mozolm.Hub Mozolm.Server
open Mozolm.Ppm (Memory Learner)
open Client (Library Outside Waits truncate clientMain kbestLine corpusLine)

variable {counter : Nat → List (List Int) → Fst XR} {encode : Int → Str} {decode : Str → List Int}

/-- The server program is told to serve one PPM model that is trained from the text `lines` and goes on learning: the
configuration is accepted, the address can be bound, the files are there, the text has some character and the reserved symbol is
not one of them. -/
structure TextServer (counter : Nat → List (List Int) → Fst XR) (d : Disk XR)
    (host : Config.Host (Config.ServerConfig (Config.ModelHubConfig (Storage XR) XR)))
    (bind : Str → Config.ServerCreds → Bool) (flags : Config.ServerFlags)
    (c : Config.ServerConfig (Config.ModelHubConfig (Storage XR) XR)) (s : Storage XR) (order : Nat) (lines : List (List Str))
    (vocab : Option (List (List Str))) : Prop where
  accepted : Config.serverConfigFromFlags host flags = some c
  bound : bind c.address (Config.buildServerCredentials c) = true
  model : ∃ w, c.hub.models = [⟨.ppm, s, w⟩]
  mixture : c.hub.mixture ≠ .unknown
  states : c.hub.maxStates < 2 ^ 31
  counts : Ppm.CounterOk counter
  trains : ∀ n ls, d.train n ls = Ppm.trainLines (counter n) ls
  alpha : s.ppm.alpha ≠ .nan
  beta : s.ppm.beta ≠ .nan
  adaptive : s.ppm.static = false
  isText : s.ppm.modelIsFst = false
  named : s.modelFile ≠ []
  text : d.lines s.modelFile = some lines
  vocabulary : d.vocabulary s.vocabularyFile = vocab.map some ∧ vocab ≠ some []
  order_eq : (order : Int) = if s.ppm.maxOrder > 0 then s.ppm.maxOrder else 4
  two : 2 ≤ order
  someChar : ∃ l ∈ lines, l ≠ []
  reserved : Ppm.epsilonName ∉ lines.flatten
  characters : ∀ ch ∈ lines.flatten ++ (vocab.getD []).flatten, ch ≠ []

section
variable {d : Disk XR} {host : Config.Host (Config.ServerConfig (Config.ModelHubConfig (Storage XR) XR))}
  {bind : Str → Config.ServerCreds → Bool} {flags : Config.ServerFlags}
  {c : Config.ServerConfig (Config.ModelHubConfig (Storage XR) XR)} {s : Storage XR} {order : Nat} {lines : List (List Str)}
  {vocab : Option (List (List Str))}

theorem TextServer.learner (h : TextServer counter d host bind flags c s order lines vocab) :
    ∃ m0 : Ppm.Model Arith.xr, (∀ f0, ∀ w, Loads (A := Arith.xr) f0 d ⟨.ppm, s, w⟩ (.ppm m0)) ∧
      (∀ ch, ch ∈ m0.symbols.map Prod.snd ↔ ch = Ppm.epsilonName ∨ ch ∈ lines.flatten ∨ ch ∈ (vocab.getD []).flatten) ∧
      Learner s.ppm order (Memory.ofText order (Ppm.labelLines m0.symbols lines)) m0 ∧ Ppm.Dense m0.symbols m0.chars ∧
      (∀ e ∈ m0.symbols, 0 < e.1 → e.2 ≠ []) := by
  obtain ⟨m0, k1, k2, k3⟩ := Ppm.text_learner h.counts h.alpha h.beta h.adaptive h.order_eq h.two h.someChar h.reserved h.vocabulary.2
  refine ⟨m0, fun f0 w => .ppm ?_, k2, k3, Learner.dense k3, fun e he _ => ?_⟩
  · simp only [readPpm, h.text, h.vocabulary.1]
    rw [if_neg (by simp [h.isText]), if_pos h.named]
    simp only [h.trains]
    exact k1
  · rcases (k2 e.2).1 (List.mem_map.2 ⟨e, he, rfl⟩) with h1 | h1
    · rw [h1]; simp [Ppm.epsilonName]
    · exact h.characters e.2 (by simpa using h1)

/-- what the server program does -/
theorem TextServer.serves (h : TextServer counter d host bind flags c s order lines vocab) {m0 : Ppm.Model Arith.xr}
    (hl : ∀ f0 w, Loads (A := Arith.xr) f0 d ⟨.ppm, s, w⟩ (.ppm m0)) {env' : Env Arith.xr (Component Arith.xr)} (hf : env'.Fair) :
    ∃ hub, initializeModels env' [.ppm m0] (Config.hubConfig c.hub) = .ok (some hub) ∧ ∀ f0,
      serverMain f0 env' d host bind flags = .serves { hub, address := c.address, creds := Config.buildServerCredentials c, poolSize := c.poolSize, up := true } := by
  obtain ⟨w, hw⟩ := h.model
  have hi := initialize_eq hf [.ppm m0] (Config.hubConfig c.hub)
  rw [if_neg (show (Config.hubConfig (A := Arith.xr) c.hub).mixture ≠ .unknown from h.mixture)] at hi
  refine ⟨_, hi, fun f0 => (C109_serves hf).2 ⟨c, [.ppm m0], h.accepted, ?_, hi, h.bound, rfl, rfl, rfl, rfl⟩⟩
  rw [Config.asked, if_neg (by rw [hw]; simp), hw]
  exact .cons (hl f0 w) .nil

end

variable {d : Disk XR} {host : Config.Host (Config.ServerConfig (Config.ModelHubConfig (Storage XR) XR))}
  {bind : Str → Config.ServerCreds → Bool} {flags : Config.ServerFlags}
  {c : Config.ServerConfig (Config.ModelHubConfig (Storage XR) XR)} {s : Storage XR} {order : Nat} {lines : List (List Str)}
  {vocab : Option (List (List Str))} {sort : List (XR × Str) → List (XR × Str)} {H : Type} {L : Library Arith.xr}

/-- The largest number of states the server keeps. -/
def roomOf (maxStates : Int) : Int := if maxStates < 10 then 10000 else maxStates

theorem cfgMax_room {S : Type} {hc : Config.ModelHubConfig S XR} :
    (cfgMax (A := Arith.xr) (Config.hubConfig (A := Arith.xr) hc) : Int) = roomOf hc.maxStates := by
  show ((if hc.maxStates < 10 then 10000 else hc.maxStates.toNat : Nat) : Int) = if hc.maxStates < 10 then 10000 else hc.maxStates
  by_cases hx : hc.maxStates < 10
  · rw [if_pos hx, if_pos hx]; rfl
  · rw [if_neg hx, if_neg hx]; omega

/-- **C110** Train on one text, measure another.  The server program serves; its symbols are the characters of the text and the
vocabulary; and whatever was requested before, with `M` what the requests have made of the memory of the text, the client
program told to measure a corpus at that address prints the number of characters, how many of them are not known, and what
coding the corpus with that memory costs per character, and exits with 0, if there is room in the state table. -/
theorem C110_bits (h : TextServer counter d host bind flags c s order lines vocab) (hsort : ∀ l, (sort l).Perm l)
    (hdec : decode [] = []) (hL : L.toInt64 = truncate) :
    ∃ (t : SymbolTable) (V : Nat), Ppm.Dense t V ∧
      (∀ ch, ch ∈ t.map Prod.snd ↔ ch = Ppm.epsilonName ∨ ch ∈ lines.flatten ∨ ch ∈ (vocab.getD []).flatten) ∧
      ∃ bound, ∀ fuel, bound ≤ fuel → ∀ orderN orderV, (env Arith.xr encode fuel orderN orderV).Fair → ∀ f0,
        ∃ x, serverMain f0 (env Arith.xr encode fuel orderN orderV) d host bind flags = .serves x ∧ x.address = c.address ∧
          ∀ reqs hub, serveAll (env Arith.xr encode fuel orderN orderV) x.hub reqs = .ok hub →
          ∃ M, Taught (env Arith.xr encode fuel orderN orderV) order (Ppm.alphabet t encode) x.hub
              (Memory.ofText order (Ppm.labelLines t lines)) reqs hub M ∧
            ∀ (hostC : Config.Host (Config.ClientConfig H XR)) (f : Config.ClientFlags XR) (cl : Config.ClientConfig H XR) (ms : Int)
              (O : Outside Arith.xr (Hub Arith.xr (Component Arith.xr) × (Nat → XR))) (rounds : Nat) (file : List (List Int)),
              Config.clientConfigFromFlags Arith.xr hostC f = some cl → cl.job.type = .bitsPerChar → Waits f.timeout ms → 0 < ms →
              cl.server.address = x.address →
              O.connect x.address (Config.buildChannelCredentials cl) ms = service (env Arith.xr encode fuel orderN orderV) decode →
              O.corpus cl.job.corpus = some (file.map fun line => line.map encode) → file ≠ [] →
              (∀ line ∈ file, ∀ x ∈ line, 0 ≤ x ∧ encode x ≠ [] ∧ decode (encode x) = [x]) →
              (1 + (reqs.map Request.symbols).sum + 4 * (file.map List.length).sum : Nat) ≤ roomOf c.hub.maxStates →
              ∀ (random : Nat → XR) (sent : List (Client.Rpc XR)),
              ∃ (w' : Client.World XR (Hub Arith.xr (Component Arith.xr) × (Nat → XR))) (k : Nat) (b : ℝ) (M' : Memory),
                CodedFile s.ppm order V (Ppm.alphabet t encode) M file k b M' ∧
                clientMain (A := Arith.xr) L (Client.Env.xr sort decode) O hostC rounds ⟨(hub, random), sent⟩ f =
                  .ok ⟨0, corpusLine L.double (file.map fun line => line.length + 1).sum k
                    (.fin (b / ((file.map fun line => line.length + 1).sum : ℕ))), w'⟩ := by
  obtain ⟨m0, k1, k2, k3, k4, k5⟩ := h.learner
  refine ⟨m0.symbols, m0.chars, k4, k2, ?_⟩
  have hs : ∀ m ∈ [Component.ppm m0], Served encode m := by
    intro m hm
    rw [List.mem_singleton.1 hm]
    exact .ppm (Ppm.laws_of s.ppm h.alpha h.beta) k3.initial
  obtain ⟨bound, hb⟩ := C106_bits_learner (decode := decode) (H := H) (L := L) k3 rfl hs k5 hsort hdec hL
  refine ⟨bound, fun fuel hfu orderN orderV hf f0 => ?_⟩
  obtain ⟨hub0, hi, hsv⟩ := h.serves k1 hf
  refine ⟨_, hsv f0, rfl, fun reqs hub hr => ?_⟩
  obtain ⟨w, hw⟩ := h.model
  obtain ⟨h0, M, i1, i2, hk⟩ := hb fuel hfu orderN orderV hf (Config.hubConfig (A := Arith.xr) c.hub) reqs hub
    (fun _ => by simp [Config.hubConfig, hw]) h.states ⟨_, hi, hr⟩
  rw [hi] at i1
  cases i1
  refine ⟨M, i2, fun hostC f cl ms O rounds file e1 e2 e3 e4 e5 e6 e7 e8 e9 e10 random sent => ?_⟩
  obtain ⟨w', k, b, M', c1, c2, _⟩ := hk hostC f cl ms O rounds file e1 e2 e3 e4 (by rw [e5]; exact e6) e7 e8 e9 (by
    have := e10
    rw [← cfgMax_room] at this
    exact_mod_cast this) random sent
  exact ⟨w', k, b, M', c1, c2⟩

/-- **C110** Train on a text, ask for what comes next.  The client program told to ask for the most likely continuations of a context
prints the most likely ones after as much of the context as the memory knows, and exits with 0; asking for more than there are
symbols (and the end of the text) is undefined. -/
theorem C110_kbest (h : TextServer counter d host bind flags c s order lines vocab) (hsort : SortsFalling sort)
    (hL : L.toInt64 = truncate) :
    ∃ (t : SymbolTable) (V : Nat), Ppm.Dense t V ∧
      (∀ ch, ch ∈ t.map Prod.snd ↔ ch = Ppm.epsilonName ∨ ch ∈ lines.flatten ∨ ch ∈ (vocab.getD []).flatten) ∧
      ∃ bound, ∀ fuel, bound ≤ fuel → ∀ orderN orderV, (env Arith.xr encode fuel orderN orderV).Fair → ∀ f0,
        ∃ x, serverMain f0 (env Arith.xr encode fuel orderN orderV) d host bind flags = .serves x ∧ x.address = c.address ∧
          ∀ reqs hub, serveAll (env Arith.xr encode fuel orderN orderV) x.hub reqs = .ok hub →
          ∃ M, Taught (env Arith.xr encode fuel orderN orderV) order (Ppm.alphabet t encode) x.hub
              (Memory.ofText order (Ppm.labelLines t lines)) reqs hub M ∧
            ∀ (hostC : Config.Host (Config.ClientConfig H XR)) (f : Config.ClientFlags XR) (cl : Config.ClientConfig H XR) (ms : Int)
              (O : Outside Arith.xr (Hub Arith.xr (Component Arith.xr) × (Nat → XR))) (rounds : Nat),
              Config.clientConfigFromFlags Arith.xr hostC f = some cl → cl.job.type = .kBestItems → Waits f.timeout ms → 0 < ms →
              cl.server.address = x.address →
              O.connect x.address (Config.buildChannelCredentials cl) ms = service (env Arith.xr encode fuel orderN orderV) decode →
              (∀ x ∈ decode cl.job.context, 0 ≤ x) →
              (1 + (reqs.map Request.symbols).sum + (decode cl.job.context).length : Nat) ≤ roomOf c.hub.maxStates →
              ∀ (random : Nat → XR) (sent : List (Client.Rpc XR)),
              ∃ (past : List Int) (w' : Client.World XR (Hub Arith.xr (Component Arith.xr) × (Nat → XR))),
                M.known past ∧ past <+: (Ppm.alphabet t encode).past (decode cl.job.context) ∧
                (decode cl.job.context = [] → past = [0]) ∧
                (cl.job.kBest ≤ V + 1 → ∃ l : List (ℝ × Str), Likeliest s.ppm t V M past cl.job.kBest.toNat l ∧
                  clientMain (A := Arith.xr) L (Client.Env.xr sort decode) O hostC rounds ⟨(hub, random), sent⟩ f =
                    .ok ⟨0, kbestLine L.fixed3 cl.job.kBest (l.map fun x => (.fin x.1, x.2)), w'⟩) ∧
                ((V : Int) + 1 < cl.job.kBest →
                  clientMain (A := Arith.xr) L (Client.Env.xr sort decode) O hostC rounds ⟨(hub, random), sent⟩ f = .error .ub) := by
  obtain ⟨m0, k1, k2, k3, k4, k5⟩ := h.learner
  refine ⟨m0.symbols, m0.chars, k4, k2, ?_⟩
  have hs : ∀ m ∈ [Component.ppm m0], Served encode m := by
    intro m hm
    rw [List.mem_singleton.1 hm]
    exact .ppm (Ppm.laws_of s.ppm h.alpha h.beta) k3.initial
  obtain ⟨bound, hb⟩ := C106_kbest_learner (decode := decode) (H := H) (L := L) k3 rfl hs k5 hsort hL
  refine ⟨bound, fun fuel hfu orderN orderV hf f0 => ?_⟩
  obtain ⟨hub0, hi, hsv⟩ := h.serves k1 hf
  refine ⟨_, hsv f0, rfl, fun reqs hub hr => ?_⟩
  obtain ⟨w, hw⟩ := h.model
  obtain ⟨h0, M, i1, i2, hk⟩ := hb fuel hfu orderN orderV hf (Config.hubConfig (A := Arith.xr) c.hub) reqs hub
    (fun _ => by simp [Config.hubConfig, hw]) h.states ⟨_, hi, hr⟩
  rw [hi] at i1
  cases i1
  refine ⟨M, i2, fun hostC f cl ms O rounds e1 e2 e3 e4 e5 e6 e7 e8 random sent => ?_⟩
  exact hk hostC f cl ms O rounds e1 e2 e3 e4 (by rw [e5]; exact e6) e7 (by
    have := e8
    rw [← cfgMax_room] at this
    exact_mod_cast this) random sent

/-- **C110** Before any request the memory is that of the text: `Taught` with no requests leaves it as it is. -/
theorem C110_fresh {e : Env Arith.xr (Component Arith.xr)} {K : Nat} {a : Ppm.Alphabet} {h0 h : Hub Arith.xr (Component Arith.xr)} {M0 M : Memory}
    (ht : Taught e K a h0 M0 [] h M) : M = M0 := by
  cases ht; rfl

end Mozolm.System
