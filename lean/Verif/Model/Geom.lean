import Mathlib.Data.Fin.VecNotation
import Verif.Model.V3
import Verif.Model.Mesh

/-!
# Geometry of the elements

Positions are a function from node index to point (`refNode[i].p`).
-/

namespace Verif.Geom

open Verif.Mesh

/-- `Tri::normal_vect`, triangle.h:227-233 -/
def normalVect (p : ℕ → V3) (f : Tri) : V3 :=
  V3.cross (p (f.ind 1) - p (f.ind 0)) (p (f.ind 2) - p (f.ind 0))

/-- `mixed_prod`, tetra.cpp:412-415 -/
def mixedProd (p : ℕ → V3) (t : Tet) : ℝ :=
  V3.dot (p (t.ind 1) - p (t.ind 0)) (V3.cross (p (t.ind 2) - p (t.ind 0)) (p (t.ind 3) - p (t.ind 0)))

/-- `std::swap(ind[2], ind[3])`, tetra.cpp:423 -/
def swap23 (t : Tet) : Tet := { t with ind := ![t.ind 0, t.ind 1, t.ind 3, t.ind 2] }

open Classical in
/-- `Tet::orientate`, tetra.cpp:410-424; `none` is `SYSTEM_ERROR` (the program exits).
`eps` is `Tetra::epsilon` -/
noncomputable def orientate (eps : ℝ) (p : ℕ → V3) (t : Tet) : Option Tet :=
  if |mixedProd p t| < eps then none
  else if mixedProd p t < 0 then some (swap23 t)
  else some t

end Verif.Geom
