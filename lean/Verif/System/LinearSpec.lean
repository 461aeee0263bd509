import Verif.System.BookSpec
import Verif.Server.LinearSpec

/-!
# What a client of a running PPM server should be told
-/

namespace Mozolm.System
open Mozolm.Hub Mozolm.Server

/-- The answer that the book gives to a request: the probabilities of the context it says, or a refusal; the number of the
page of the text asked for. (An empty text at a number that no page has is given any answer.) -/
def Book.gives (o : Ppm.Options XR) (K : Nat) (a : Ppm.Alphabet) (symbols : SymbolTable) (V : Nat) (b : Book) (r : Request) : Answer XR → Prop
  | .scores rep => Says o symbols V (b.serve K a r).memory (b.says K a r) rep
  | .state rep => ∃ text x, r = .getNextState text x ∧ (text ≠ [] ∨ toInt32 x < b.pages.length →
      ∃ (k : Nat) (p : Page), rep = .ok (k : Int) ∧ (b.serve K a r).pages[k]? = some p ∧ p.text = (b.page (toInt32 x)).text ++ text)

end Mozolm.System
