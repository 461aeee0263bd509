import Verif.System.MemorySpec

/-!
# The book that a server with a PPM component that learns should be

The memory of contexts (`Ppm/MemorySpec.lean`), and a page for each text visited, in the order of first visits, with the
context that the text was last found to be in.  The number of a page is the state id of the text.
-/

namespace Mozolm.System
open Mozolm.Hub Mozolm.Server
open Mozolm.Ppm (Memory)

/-- A text and the context it was found in. -/
structure Page where
  text : List Int
  ctx : List Int
  deriving DecidableEq, Repr

/-- The page of the empty text: the beginning. -/
def Page.first : Page := ⟨[], [0]⟩

structure Book where
  memory : Memory
  pages : List Page

/-- A book with no text visited. -/
def Book.blank (M : Memory) : Book := ⟨M, [.first]⟩

/-- The page with a number; what is not the number of a page counts as the first. -/
def Book.page (b : Book) (s : Int) : Page := if s < 0 then .first else (b.pages[s.toNat]?).getD .first

/-- From a page to that of its text with `sym` added. If there is none one is added, with the longest context known
that the context of the page, with the symbol, ends with. -/
noncomputable def Book.turn (a : Ppm.Alphabet) (b : Book) (p : Page) (sym : Int) : Book × Page :=
  match b.pages.find? fun q => q.text = p.text ++ [sym] with
  | some q => (b, q)
  | none => (⟨b.memory, b.pages ++ [⟨p.text ++ [sym], b.memory.longest (a.typed sym :: p.ctx)⟩]⟩,
      ⟨p.text ++ [sym], b.memory.longest (a.typed sym :: p.ctx)⟩)

/-- From a page along a text. -/
noncomputable def Book.read (a : Ppm.Alphabet) (b : Book) (p : Page) : List Int → Book × Page
  | [] => (b, p)
  | c :: cs => (b.turn a p c).1.read a (b.turn a p c).2 cs

/-- What a page becomes when `cs` was counted at page `p`: the pages from that of `p` along `cs` get the longest contexts
known afterwards; the others stay. -/
noncomputable def Page.after (a : Ppm.Alphabet) (M : Memory) (p : Page) (cs : List Int) (q : Page) : Page :=
  if p.text <+: q.text ∧ q.text <+: p.text ++ cs then ⟨q.text, M.longest (onto a (q.text.drop p.text.length) p.ctx)⟩ else q

/-- `cs` counted `n` times at page `s`. -/
noncomputable def Book.count (K : Nat) (a : Ppm.Alphabet) (b : Book) (s : Int) (cs : List Int) (n : Int) : Book :=
  ⟨counted K a b.memory (b.page s).ctx cs n,
    (b.read a (b.page s) cs).1.pages.map (Page.after a (counted K a b.memory (b.page s).ctx cs n) (b.page s) cs)⟩

/-- The book after a request. (Counting first goes along the text from the page, then counts if there is a page with that
number by then.) -/
noncomputable def Book.serve (K : Nat) (a : Ppm.Alphabet) (b : Book) : Request → Book
  | .getNextState text s => (b.read a (b.page (toInt32 s)) text).1
  | .getLMScores text s => (b.read a (b.page (toInt32 s)) text).1
  | .updateLMScores s cs n =>
    if 0 ≤ toInt32 s ∧ toInt32 s < (b.read a (b.page (toInt32 s)) cs).1.pages.length then
      (b.read a (b.page (toInt32 s)) cs).1.count K a (toInt32 s) cs n
    else (b.read a (b.page (toInt32 s)) cs).1

/-- The context whose probabilities, in the memory after the request, a reply with scores has; none: the request is
refused (or its reply has no scores). -/
noncomputable def Book.says (K : Nat) (a : Ppm.Alphabet) (b : Book) : Request → Option (List Int)
  | .getNextState _ _ => none
  | .getLMScores text s =>
    if text = [] ∧ b.pages.length ≤ toInt32 s then none else some (b.read a (b.page (toInt32 s)) text).2.ctx
  | .updateLMScores s cs n =>
    if 0 ≤ toInt32 s ∧ toInt32 s < (b.read a (b.page (toInt32 s)) cs).1.pages.length then
      let b' := (b.read a (b.page (toInt32 s)) cs).1
      some (Page.after a (b'.count K a (toInt32 s) cs n).memory (b'.page (toInt32 s)) cs (b.read a (b.page (toInt32 s)) cs).2).ctx
    else none

/-- The reply has the probabilities of that context. -/
def Says (o : Ppm.Options XR) (symbols : SymbolTable) (V : Nat) (M : Memory) (c : Option (List Int)) (rep : Reply (LMScores XR)) : Prop :=
  match c with
  | some c => ∃ r, rep = .ok r ∧ Tells o symbols V M c r
  | none => rep = .invalidArgument

/-- The book after a history of requests. -/
noncomputable def Book.serveAll (K : Nat) (a : Ppm.Alphabet) (b : Book) (reqs : List Request) : Book := reqs.foldl (Book.serve K a) b

end Mozolm.System
