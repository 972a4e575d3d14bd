import Verif.Model.V3

/-!
# Specification: smallest axis-parallel box containing a list of points
-/

namespace Verif.BoundingBox

/-- the box of centre `c` and lengths `l` contains the point `p` -/
def Contains (c l p : V3) : Prop := ∀ i : Fin 3, |p.comp i - c.comp i| ≤ l.comp i / 2

/-- the box of centre `c` and lengths `l` contains all the points, and lies in every box that does -/
def IsBoundingBox (points : List V3) (c l : V3) : Prop :=
  (∀ p ∈ points, Contains c l p) ∧
  ∀ c' l' : V3, (∀ p ∈ points, Contains c' l' p) → ∀ i : Fin 3,
    c'.comp i - l'.comp i / 2 ≤ c.comp i - l.comp i / 2 ∧ c.comp i + l.comp i / 2 ≤ c'.comp i + l'.comp i / 2

end Verif.BoundingBox
