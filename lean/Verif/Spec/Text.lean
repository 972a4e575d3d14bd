import Verif.Model.Text

/-!
# Lines of a text
-/

namespace Verif.Text

/-- the lines of a text, as seen by a program that reads up to each end of line character -/
def lines : Str → List Str
  | [] => []
  | c :: s => if c = '\n' then [] :: lines s else
    match lines s with
    | [] => [[c]]
    | l :: ls => (c :: l) :: ls

end Verif.Text
