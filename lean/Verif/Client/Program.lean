import Verif.Client.Model
import Verif.Config.Model

/-!
# Model of the client program

`RunClient` (client_helper.cc:309-333) with `ClientHelper::Init` (:287-300), and `main` of client_async_main.cc.
-/

namespace Mozolm.Client
open Config (ClientConfig ClientFlags Host ChannelCreds Job)

/-- Library functions the client program uses. -/
structure Library (A : Arith) where
  /-- `%5.3f`, client_helper.cc:235 -/
  fixed3 : A.D → Str
  /-- a double in `absl::StrJoin`, client_helper.cc:280-283 -/
  double : A.D → Str
  /-- `static_cast<int64_t>`, client_async_impl.cc:58; `none`: not defined for the value -/
  toInt64 : A.D → Option Int

/-- The characters of a literal. -/
def literal (s : String) : Str := s.toList.map Char.toNat

/-- `std::to_string` of an int, also how `absl::StrJoin` writes one. -/
def decimal (i : Int) : Str := literal (toString i)

variable {A : Arith} {ω H : Type}

/-- The loop of `OneKbestSample`, client_helper.cc:234-238: each round puts the text so far in front of `" %s(%5.3f)"`. -/
def kbestPrint (L : Library A) (text : Str) : List (A.D × Str) → Str
  | [] => text
  | x :: xs => kbestPrint L (text ++ literal " " ++ x.2 ++ literal "(" ++ L.fixed3 x.1 ++ literal ")") xs

/-- The text made by `OneKbestSample`, client_helper.cc:233-238. -/
def kbestText (L : Library A) (k : Int) (l : List (A.D × Str)) : Str :=
  kbestPrint L (decimal k ++ literal "-best prob continuations:") l

/-- The text made by `CalcBitsPerCharacter`, client_helper.cc:280-283. Simplified: the counts do not overflow. -/
def bitsText (L : Library A) (r : BitsReport A.D) : Str :=
  literal "Total characters: " ++ decimal r.chars ++ literal " (" ++ decimal r.oov ++ literal " OOV); bits per character: " ++
    L.double r.bitsPerChar

/-- `static_cast<int64_t>(1000.0 * timeout_sec)`, client_async_impl.cc:56-59: the deadline of an RPC in milliseconds from now. -/
def deadline (L : Library A) (timeout : A.D) : Except Fault Int :=
  match L.toInt64 (A.dmul (A.ofInt 1000) timeout) with
  | some ms => .ok ms
  | none => .error .ub

/-- What the client program meets: the servers it can connect to, as they behave towards RPCs with a deadline, and the files
a corpus is read from (`none`: cannot be opened), split in lines and characters. -/
structure Outside (A : Arith) (ω : Type) where
  connect : Str → ChannelCreds → Int → Service A.D ω
  corpus : Str → Option (List (List Str))

/-- What a run of `RunClient` leaves: whether the status is OK, what was written to standard output, the world. -/
structure Ran (D ω : Type) where
  ok : Bool
  printed : Str
  world : World D ω

/-- client_helper.cc:329-332: the result is printed if the status is OK. -/
def printed (ok : Bool) (text : Str) (w : World A.D ω) : Ran A.D ω :=
  { ok, printed := if ok then text ++ literal "\n" else [], world := w }

/-- `RunClient`, client_helper.cc:309-333. `Init` (:287-300) does not fail (gRPC gives credentials; the channel connects when the
first RPC is sent): it fixes the address, the credentials and the time-out that every RPC uses (:141, :157, :174). The deadline is
computed by each RPC (client_async_impl.cc:74, :105, :146): here once, where the first RPC is sent. A corpus without lines
sends none. -/
def runClient (L : Library A) (E : Env A) (O : Outside A ω) (fuel : Nat) (w : World A.D ω) (c : ClientConfig H A.D) :
    Except Fault (Ran A.D ω) :=
  let S := O.connect c.server.address (Config.buildChannelCredentials c)
  match c.job.type with
  | .randgen => do
    let ms ← deadline L c.timeout
    let r ← randGen E (S ms) fuel w c.job.context
    .ok (printed r.1.ok r.1.text r.2)
  | .kBestItems => do
    let ms ← deadline L c.timeout
    let r ← oneKbestSample E (S ms) w c.job.kBest c.job.context
    match r.1 with
    | none => .ok (printed false [] r.2)
    | some l => .ok (printed true (kbestText L c.job.kBest l) r.2)
  | .bitsPerChar =>
    match O.corpus c.job.corpus with
    | none => .ok (printed false [] w)
    | some [] => .ok (printed true (bitsText L { chars := 0, oov := 0, bitsPerChar := A.ddiv (A.ofInt 0) (A.ofInt 0) }) w)
    | some (line :: lines) => do
      let ms ← deadline L c.timeout
      let r ← calcBitsPerCharacter E (S ms) w (line :: lines)
      match r.1 with
      | none => .ok (printed false [] r.2)
      | some b => .ok (printed true (bitsText L b) r.2)
  | .notSet => .ok (printed false [] w)
  | .other => .ok (printed false [] w)

/-- What a run of the program leaves. -/
structure Exited (D ω : Type) where
  code : Nat
  printed : Str
  world : World D ω

/-- `main`, client_async_main.cc:148-163. -/
def clientMain (L : Library A) (E : Env A) (O : Outside A ω) (host : Host (ClientConfig H A.D)) (fuel : Nat) (w : World A.D ω)
    (f : ClientFlags A.D) : Except Fault (Exited A.D ω) :=
  match Config.clientConfigFromFlags A host f with
  | none => .ok { code := 1, printed := [], world := w }
  | some c => do
    let r ← runClient L E O fuel w c
    .ok { code := if r.ok then 0 else 1, printed := r.printed, world := r.world }

end Mozolm.Client
