import Verif.Model.Evol

/-!
# Specification of the table of a run

What each column name means, as documented in src/default-settings.yml, and how a program reads a line of the table.
-/

namespace Verif.Evol

open Verif.Text

/-- columns for the whole sample -/
def wholeTable : List (Str × Quantity) :=
  [("iter".toList, .iter), ("t".toList, .t), ("dt".toList, .dt), ("max_dm".toList, .maxDm),
   ("max_angle".toList, .maxAngle),
   ("<Mx>".toList, .avgU 0 (-1)), ("<My>".toList, .avgU 1 (-1)), ("<Mz>".toList, .avgU 2 (-1)),
   ("<dMx/dt>".toList, .avgV 0 (-1)), ("<dMy/dt>".toList, .avgV 1 (-1)), ("<dMz/dt>".toList, .avgV 2 (-1)),
   ("Thiele_length".toList, .thiele (-1)),
   ("E_ex".toList, .exchange), ("E_aniso".toList, .anisotropy), ("E_demag".toList, .demag),
   ("E_zeeman".toList, .zeeman), ("E_tot".toList, .total),
   ("Hx".toList, .field 0), ("Hy".toList, .field 1), ("Hz".toList, .field 2)]

/-- columns that are computed for region `i` -/
def regionTable (i : ℕ) : List (Str × Quantity) :=
  [("<Mx>".toList, .avgU 0 i), ("<My>".toList, .avgU 1 i), ("<Mz>".toList, .avgU 2 i),
   ("<dMx/dt>".toList, .avgV 0 i), ("<dMy/dt>".toList, .avgV 1 i), ("<dMz/dt>".toList, .avgV 2 i),
   ("Thiele_length".toList, .thiele i)]

/-- what a column name means: `name`, or `region:name` -/
inductive Means (regions : List Str) : Str → Quantity → Prop
  | whole {k : Str} {q : Quantity} : (k, q) ∈ wholeTable → Means regions k q
  | region {r k : Str} {i : ℕ} {q : Quantity} : regions[i]? = some r → (∀ j < i, regions[j]? ≠ some r) →
      (k, q) ∈ regionTable i → Means regions (r ++ ':' :: k) q

/-- the fields of a line, separated by tabulators -/
def fields : Str → List Str
  | [] => [[]]
  | c :: s => if c = '\t' then [] :: fields s else
    match fields s with
    | [] => [[c]]
    | f :: fs => (c :: f) :: fs

end Verif.Evol
