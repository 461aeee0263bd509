import Verif.Scores.Model
import Verif.Server.Handlers

/-!
# Model of the client: `mozolm/grpc/client_helper.cc` and `mozolm/grpc/client_async_impl.cc`

The server is arbitrary: a state `ω` and for each RPC a function giving the reply (`none` when the RPC
fails: bad status, timeout, transport error) and the new state.  The random bit generator is part of
the same state.  Every RPC is recorded with its reply in a transcript no code reads.
-/

namespace Mozolm.Client

open Scores

/-- One RPC as sent, with the reply (`service.proto`; request fields set at client_async_impl.cc:77-78,
:107-108, :149-154). -/
inductive Rpc (D : Type) where
  | lmScores (context : Str) (state : Int) (reply : Option (LMScores D))
  | nextState (context : Str) (state : Int) (reply : Option Int)
  | update (state : Int) (syms : List Int) (count : Int) (reply : Option (LMScores D))
  deriving Repr, DecidableEq

/-- The other side: server, network and random source. -/
structure Service (D ω : Type) where
  lmScores : ω → Str → Int → Option (LMScores D) × ω
  nextState : ω → Str → Int → Option Int × ω
  update : ω → Int → List Int → Int → Option (LMScores D) × ω
  /-- `absl::Uniform(bit_gen, 0.0, 1.0)`, client_helper.cc:49-51 -/
  uniform : ω → D × ω

/-- Library functions and constants the client uses. -/
structure Env (A : Arith) where
  /-- `std::sort` in `GetTopHypotheses` -/
  sort : List (A.D × Str) → List (A.D × Str)
  /-- `nisaba::utf8::StrSplitByCharToUnicode` -/
  decode : Str → List Int
  /-- `-std::log2` -/
  bits : A.D → A.D
  /-- `UniformMixValue()`, client_helper.cc:84-86 -/
  mixUniform : A.D
  /-- `1.0 - kMixEpsilon`, client_helper.cc:96 -/
  mixKeep : A.D

/-- The world the client acts on: the other side and the transcript. -/
structure World (D ω : Type) where
  srv : ω
  sent : List (Rpc D)

variable {A : Arith} {ω : Type}

/-- `ClientAsyncImpl::GetLMScore`, client_async_impl.cc:69-98: scores sorted by `GetTopHypotheses` with
the default `top_n` of -1, and the normalisation. -/
def getLMScore (E : Env A) (S : Service A.D ω) (w : World A.D ω) (ctx : Str) (state : Int) :
    Option (List (A.D × Str) × A.D) × World A.D ω :=
  let r := S.lmScores w.srv ctx state
  let w' : World A.D ω := { srv := r.2, sent := w.sent ++ [.lmScores ctx state r.1] }
  match r.1 with
  | none => (none, w')
  | some resp =>
    match getTopHypotheses E.sort resp (-1) with
    | .ok hyps => (some (hyps, resp.norm), w')
    | _ => (none, w')

/-- `ClientAsyncImpl::GetNextState`, client_async_impl.cc:100-129. -/
def rpcNextState (S : Service A.D ω) (w : World A.D ω) (ctx : Str) (state : Int) :
    Option Int × World A.D ω :=
  let r := S.nextState w.srv ctx state
  (r.1, { srv := r.2, sent := w.sent ++ [.nextState ctx state r.1] })

/-- The inner `ClientAsyncImpl::UpdateCountGetDestStateScore`, client_async_impl.cc:141-175. -/
def rpcUpdate (E : Env A) (S : Service A.D ω) (w : World A.D ω) (syms : List Int) (state count : Int) :
    Option (List (A.D × Str)) × World A.D ω :=
  let r := S.update w.srv state syms count
  let w' : World A.D ω := { srv := r.2, sent := w.sent ++ [.update state syms count r.1] }
  match r.1 with
  | none => (none, w')
  | some resp =>
    match getTopHypotheses E.sort resp (-1) with
    | .ok hyps => (some hyps, w')
    | _ => (none, w')

/-- `UpdateCountGetDestStateScore`, client_helper.cc:165-176 and client_async_impl.cc:131-139.
The `int64_t` state is passed as `int initial_state`. -/
def updateCountGetDestStateScore (E : Env A) (S : Service A.D ω) (w : World A.D ω) (ctx : Str)
    (state count : Int) : Option (Int × List (A.D × Str)) × World A.D ω :=
  let u := rpcUpdate E S w (E.decode ctx) (Server.toInt32 state) count
  match u.1 with
  | none => (none, u.2)
  | some hyps =>
    let n := rpcNextState S u.2 ctx (Server.toInt32 state)
    match n.1 with
    | none => (none, n.2)
    | some s => (some (s, hyps), n.2)

/-- `ClientHelper::GetLMScores`, client_helper.cc:134-149. -/
def getLMScores (E : Env A) (S : Service A.D ω) (w : World A.D ω) (ctx : Str) (state : Int) :
    Option (List (A.D × Str)) × World A.D ω :=
  let r := getLMScore E S w ctx (Server.toInt32 state)
  match r.1 with
  | none => (none, r.2)
  | some (hyps, norm) => if A.dle norm (A.ofInt 0) then (none, r.2) else (some hyps, r.2)

/-- Loop of `GetRandomPosition`, client_helper.cc:58-64; `i` is `pos`. -/
def randomLoop (A : Arith) (thresh total : A.D) (i : Nat) : List A.D → Nat
  | [] => i
  | p :: ps => if A.dlt total thresh then randomLoop A thresh (A.dadd total p) (i + 1) ps else i

/-- `GetRandomPosition`, client_helper.cc:54-67 (the threshold is drawn by the caller). -/
def randomPosition (A : Arith) (probs : List A.D) (thresh : A.D) : Nat :=
  let pos := randomLoop A thresh (A.ofInt 0) 0 probs
  if pos > 0 then pos - 1 else pos

/-- What `RandGen` leaves behind: status and `*result`. -/
structure Gen where
  ok : Bool
  text : Str
  deriving Repr, DecidableEq

/-- "(reached_length_limit)", client_helper.cc:217 -/
def limitMessage : Str :=
  [40, 114, 101, 97, 99, 104, 101, 100, 95, 108, 101, 110, 103, 116, 104, 95, 108, 105, 109, 105, 116,
   41]

/-- client_helper.cc:216-223 after a loop that ended with `success`. -/
def randFinish (text : Str) (maxLen : Nat) : Gen :=
  if maxLen ≤ text.length then { ok := true, text := text ++ limitMessage }
  else { ok := true, text := text }

/-- The `do … while` loop of `RandGen`, client_helper.cc:195-215.  The branch that appends
"(subsequent generation failed)" (:211-213) is unreachable: the loop ends when `success` is false.
`fuel` bounds the iterations (`Fault.fuel` if it runs out). -/
def randLoop (E : Env A) (S : Service A.D ω) (maxLen : Nat) :
    Nat → World A.D ω → Int → List (A.D × Str) → Str → Except Fault (Gen × World A.D ω)
  | 0, _, _, _, _ => .error .fuel
  | fuel + 1, w, state, scores, text =>
    let u := S.uniform w.srv
    let w : World A.D ω := { w with srv := u.2 }
    let pos := randomPosition A (scores.map Prod.fst) u.1            -- :197
    match scores[pos]? with
    | none => .ok ({ ok := false, text := text }, w)                  -- :198-200
    | some (_, chosen) =>                                             -- :201
      if chosen = [] then .ok (randFinish text maxLen, w)
      else
        let text := text ++ chosen                                    -- :204
        let r := updateCountGetDestStateScore E S w chosen state 1     -- :206-209
        match r.1 with
        | none => .ok ({ ok := false, text := text }, r.2)            -- :219-220
        | some (state, scores) =>
          if text.length < maxLen then randLoop E S maxLen fuel r.2 state scores text
          else .ok (randFinish text maxLen, r.2)

/-- `kMaxRandGenLen`, client_helper.h -/
def maxRandGenLen : Nat := 128

/-- `ClientHelper::RandGen`, client_helper.cc:178-224. -/
def randGen (E : Env A) (S : Service A.D ω) (fuel : Nat) (w : World A.D ω) (ctx : Str) :
    Except Fault (Gen × World A.D ω) :=
  let n := rpcNextState S w ctx (-1)                                   -- :185
  match n.1 with
  | none => .ok ({ ok := false, text := ctx }, n.2)
  | some state =>
    let r := getLMScores E S n.2 [] state                              -- :191
    match r.1 with
    | none => .ok ({ ok := false, text := ctx }, r.2)
    | some scores => randLoop E S (maxRandGenLen + ctx.length) fuel r.2 state scores ctx

/-- Loop of `OneKbestSample`, client_helper.cc:234-238: `v[i]` for `i` from `i` on, `n` times.
`operator[]` beyond the end is undefined. -/
def kbestLoop (scores : List (A.D × Str)) (i : Nat) : Nat → Except Fault (List (A.D × Str))
  | 0 => .ok []
  | n + 1 =>
    match scores[i]? with
    | none => .error .ub
    | some x => do
      let rest ← kbestLoop scores (i + 1) n
      .ok (x :: rest)

/-- `ClientHelper::OneKbestSample`, client_helper.cc:226-240: the pairs printed, in order.
Simplification: the text around them is not modelled. -/
def oneKbestSample (E : Env A) (S : Service A.D ω) (w : World A.D ω) (k : Int) (ctx : Str) :
    Except Fault (Option (List (A.D × Str)) × World A.D ω) :=
  let r := getLMScores E S w ctx (-1)
  match r.1 with
  | none => .ok (none, r.2)
  | some scores => do
    let l ← kbestLoop scores 0 k.toNat
    .ok (some l, r.2)

/-- `FindStringIndex`, client_helper.cc:72-81. -/
def findStringIndex (scores : List (A.D × Str)) (sym : Str) : Option Nat :=
  scores.findIdx? fun x => x.2 == sym

/-- `CalculateBits`, client_helper.cc:91-99. -/
def calculateBits (E : Env A) (idx : Option Nat) (scores : List (A.D × Str)) : Except Fault A.D :=
  match idx with
  | none => .ok (E.bits E.mixUniform)
  | some i =>
    match scores[i]? with
    | none => .error .ub
    | some x => .ok (E.bits (A.dadd E.mixUniform (A.dmul x.1 E.mixKeep)))

/-- Running totals of `CalcBitsPerCharacter`. -/
structure Totals (D : Type) where
  chars : Nat
  oov : Nat
  bits : D
  deriving Repr, DecidableEq

/-- Loop over the characters of a line, client_helper.cc:262-274 (`none`: an RPC failed). -/
def bitsLine (E : Env A) (S : Service A.D ω) :
    World A.D ω → Totals A.D → Int → List (A.D × Str) → List Str →
      Except Fault (Option (Totals A.D) × World A.D ω)
  | w, tot, _, _, [] => .ok (some tot, w)
  | w, tot, state, scores, sym :: syms => do
    let idx := findStringIndex scores sym                              -- :263
    let b ← calculateBits E idx scores                                  -- :264
    let tot : Totals A.D :=
      { chars := tot.chars + 1, oov := if idx.isNone then tot.oov + 1 else tot.oov,
        bits := A.dadd tot.bits b }                                     -- :264-268
    let r := updateCountGetDestStateScore E S w sym state 1             -- :270-272
    match r.1 with
    | none => .ok (none, r.2)                                           -- :273
    | some (state, scores) => bitsLine E S r.2 tot state scores syms

/-- Loop over the lines, client_helper.cc:254-275; a line is the list of its UTF-8 characters
(`StrSplitByChar`), to which the end-of-string symbol "" is appended (:257). -/
def bitsLines (E : Env A) (S : Service A.D ω) :
    World A.D ω → Totals A.D → List (List Str) → Except Fault (Option (Totals A.D) × World A.D ω)
  | w, tot, [] => .ok (some tot, w)
  | w, tot, line :: lines => do
    let r := getLMScores E S w [] 0                                     -- :260-261
    match r.1 with
    | none => .ok (none, r.2)
    | some scores =>
      let l ← bitsLine E S r.2 tot 0 scores (line ++ [[]])
      match l.1 with
      | none => .ok (none, l.2)
      | some tot => bitsLines E S l.2 tot lines

/-- The figures reported by `CalcBitsPerCharacter`. -/
structure BitsReport (D : Type) where
  chars : Nat
  oov : Nat
  bitsPerChar : D

/-- `ClientHelper::CalcBitsPerCharacter` on a file that could be opened, client_helper.cc:242-285. -/
def calcBitsPerCharacter (E : Env A) (S : Service A.D ω) (w : World A.D ω) (file : List (List Str)) :
    Except Fault (Option (BitsReport A.D) × World A.D ω) := do
  let r ← bitsLines E S w { chars := 0, oov := 0, bits := A.ofInt 0 } file
  match r.1 with
  | none => .ok (none, r.2)
  | some t =>
    .ok (some { chars := t.chars, oov := t.oov, bitsPerChar := A.ddiv t.bits (A.ofInt t.chars) }, r.2)

end Mozolm.Client
