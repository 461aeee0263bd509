import Verif.Bigram.Spec

/-!
# Threads sharing one bigram model

A small-step interleaving of any number of threads calling `ExtractLMScores`, `SymLMScore` and
`UpdateLMCounts` on one model.  Every lock acquisition, every read and every write of a shared cell
is one step; the two `absl::Mutex`es are reader/writer locks, released in reverse order of
acquisition when the scoped locks are destroyed.

Simplifications: memory is sequentially consistent (justified for cells guarded by the locks); the
immutable `utf8_indices_` and `vocab_indices_` are read without steps of their own.
-/

namespace Mozolm.Bigram.Threads

/-- A call on the shared model. -/
inductive Op where
  | extract (s : Int)
  | score (s c : Int)
  | update (u : Update)

inductive Mode where
  | read
  | write
  deriving DecidableEq

/-- The mode in which the call takes both locks: simple_bigram_char_model.cc:164-165, 187-188
(`ReaderMutexLock`), 198-199 (`WriterMutexLock`). -/
def Op.mode : Op → Mode
  | .extract _ => .read
  | .score _ _ => .read
  | .update _ => .write

/-- A shared cell. -/
inductive Loc where
  | norm (i : Nat)
  | count (i j : Nat)

/-- its contents -/
def value (m : Model) : Loc → Option Int
  | .norm i => m.norm[i]?
  | .count i j => (m.counts[i]?).bind fun row => row[j]?

/-- The condition at simple_bigram_char_model.cc:186; when false `SymLMScore` takes no lock. -/
def covered (m : Model) (s c : Int) : Bool :=
  m.validState (m.fix s : Nat) && m.validState (nextState m (m.fix s : Nat) c)

/-- The cells a call reads, in order: simple_bigram_char_model.cc:170-175 (the normaliser for the
response field, then a count and the normaliser per symbol) and 189-190. -/
def plan (m : Model) : Op → List Loc
  | .extract s =>
    let st := m.fix s
    .norm st :: (List.range ((m.counts[st]?).getD []).length).flatMap fun j =>
      [.count st j, .norm st]
  | .score s c => [.count (m.fix s) (nextState m (m.fix s : Nat) c).toNat, .norm (m.fix s)]
  | .update _ => []

/-- the (count, normaliser) pairs read by `ExtractLMScores` -/
def pairUp : List Int → List (Int × Int)
  | c :: n :: rest => (c, n) :: pairUp rest
  | _ => []

/-- The response built from the values read, simple_bigram_char_model.cc:170-175. -/
def scoresOf (A : Arith) (enc : Int → Str) (utf8 : List Int) : List Int → LMScores A.D
  | [] => ⟨[], [], A.ofInt 0⟩
  | nrm :: rest =>
    let l := (utf8.zip (pairUp rest)).map fun p => (enc p.1, A.ddiv (A.ofInt p.2.1) (A.ofInt p.2.2))
    ⟨l.map Prod.fst, l.map Prod.snd, A.ofInt nrm⟩

/-- The cost built from the values read, simple_bigram_char_model.cc:189-192. -/
def costOfReads (A : Arith) : List Int → A.C
  | [x, n] => A.cost (A.ddiv (A.ofInt x) (A.ofInt n))
  | _ => A.cost (A.ofInt 0)

/-- Where a thread is inside its current call. -/
inductive Pc where
  /-- before the call takes the normaliser lock -/
  | idle
  /-- holds the normaliser lock, wants the counts lock -/
  | haveN
  /-- holds both, still has to read these cells; values read so far -/
  | reading (locs : List Loc) (got : List Int)
  /-- holds both, at the head of the update loop in `state` with these symbols left, :209 -/
  | writing (i : Nat) (cs : List Int)
  /-- between the two increments, :215 and :216 -/
  | half (i j : Nat) (cs : List Int)
  /-- the counts lock is released, the normaliser lock is not -/
  | relN

structure Thread where
  todo : List Op
  pc : Pc

/-- A completed call and its answer. -/
inductive Event (A : Arith) where
  | scored (t : Nat) (s : Int) (r : LMScores A.D)
  | cost (t : Nat) (s c : Int) (x : A.C)
  | updated (t : Nat) (u : Update)

structure Config (A : Arith) where
  mem : Model
  threads : List Thread
  /-- completed calls, in order of completion -/
  events : List (Event A)

def Thread.mode? (th : Thread) : Option Mode := th.todo.head?.map Op.mode

/-- the mode in which a thread holds the normaliser lock -/
def Thread.holdsN (th : Thread) : Option Mode :=
  match th.pc with
  | .idle => none
  | _ => th.mode?

/-- the mode in which a thread holds the counts lock -/
def Thread.holdsC (th : Thread) : Option Mode :=
  match th.pc with
  | .idle => none
  | .haveN => none
  | .relN => none
  | _ => th.mode?

/-- may the normaliser lock be taken in mode `md` next to this other thread?  `strict`: readers also
wait for waiting writers (`absl::Mutex` prefers writers). -/
def compatN (strict : Bool) (md : Mode) (th : Thread) : Bool :=
  match md with
  | .write => th.holdsN.isNone
  | .read => (th.holdsN != some .write) &&
      (!strict || !(th.holdsN.isNone && th.mode? == some .write))

/-- the same for the counts lock -/
def compatC (strict : Bool) (md : Mode) (th : Thread) : Bool :=
  match md with
  | .write => th.holdsC.isNone
  | .read => (th.holdsC != some .write) &&
      (!strict || !(match th.pc with | .haveN => th.mode? == some .write | _ => false))

/-- the first increment, simple_bigram_char_model.cc:215 -/
def bumpNorm (m : Model) (i : Nat) (n : Int) : Except Fault Model :=
  match m.norm[i]? with
  | some x => .ok { m with norm := m.norm.set i (x + n) }
  | none => .error .ub

/-- the second increment, simple_bigram_char_model.cc:216 -/
def bumpCount (m : Model) (i j : Nat) (n : Int) : Except Fault Model :=
  match m.counts[i]? with
  | some row =>
    match row[j]? with
    | some c =>
      if c + n ≤ maxInt64 then .ok { m with counts := m.counts.set i (row.set j (c + n)) }
      else .error .ub
    | none => .error .ub
  | none => .error .ub

/-- What a call does once it holds both locks: simple_bigram_char_model.cc:166, 189, 201-208. -/
def enter (m : Model) : Op → Pc
  | .update u => if u.count ≤ 0 then .writing 0 [] else .writing (m.fix u.state) u.syms
  | op => .reading (plan m op) []

/-- The answer of a reading call. -/
def answer (A : Arith) (enc : Int → Str) (m : Model) (t : Nat) (op : Op) (got : List Int) : Event A :=
  match op with
  | .extract s => .scored t s (scoresOf A enc m.utf8 got)
  | .score s c => .cost t s c (costOfReads A got)
  | .update u => .updated t u

/-- does the call need no lock at all? -/
def lockless (m : Model) : Op → Bool
  | .score s c => !covered m s c
  | _ => false

/-- One step of thread `t`; `none` when it is blocked, finished, or would be undefined. -/
def step (A : Arith) (enc : Int → Str) (strict : Bool) (cfg : Config A) (t : Nat) :
    Option (Config A) :=
  match cfg.threads[t]? with
  | none => none
  | some th =>
    match th.todo with
    | [] => none
    | op :: rest =>
      let others := cfg.threads.set t ⟨[], .idle⟩
      let go (pc : Pc) : Config A := { cfg with threads := cfg.threads.set t ⟨op :: rest, pc⟩ }
      match th.pc with
      | .idle =>
        if lockless cfg.mem op then
          some { cfg with threads := cfg.threads.set t ⟨rest, .idle⟩,
                          events := cfg.events ++ [answer A enc cfg.mem t op []] }
        else if others.all (compatN strict op.mode) then some (go .haveN) else none
      | .haveN =>
        if others.all (compatC strict op.mode) then some (go (enter cfg.mem op)) else none
      | .reading [] got =>
        some { go .relN with events := cfg.events ++ [answer A enc cfg.mem t op got] }
      | .reading (l :: ls) got =>
        match value cfg.mem l with
        | none => none
        | some x => some (go (.reading ls (got ++ [x])))
      | .writing _ [] =>
        some { go .relN with events := cfg.events ++ [answer A enc cfg.mem t op []] }
      | .writing i (c :: cs) =>
        let ns := nextState cfg.mem i c
        if ns < 0 then some (go (.writing 0 cs))
        else
          match op with
          | .update u =>
            match bumpNorm cfg.mem i u.count with
            | .ok m => some { go (.half i ns.toNat cs) with mem := m }
            | .error _ => none
          | _ => none
      | .half i j cs =>
        match op with
        | .update u =>
          match bumpCount cfg.mem i j u.count with
          | .ok m => some { go (.writing j cs) with mem := m }
          | .error _ => none
        | _ => none
      | .relN => some { cfg with threads := cfg.threads.set t ⟨rest, .idle⟩ }

/-- Start: each thread has a list of calls to make. -/
def start (A : Arith) (m : Model) (progs : List (List Op)) : Config A :=
  ⟨m, progs.map fun p => ⟨p, .idle⟩, []⟩

/-- The configurations some schedule reaches. -/
inductive Reaches (A : Arith) (enc : Int → Str) (m0 : Model) (progs : List (List Op)) :
    Config A → Prop
  | start : Reaches A enc m0 progs (start A m0 progs)
  | step {cfg cfg' : Config A} {t : Nat} : Reaches A enc m0 progs cfg →
      step A enc false cfg t = some cfg' → Reaches A enc m0 progs cfg'

end Mozolm.Bigram.Threads
