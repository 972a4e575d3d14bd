import Mathlib.Data.List.Basic
import Verif.Model.V3

/-!
# Space dependent applied field (src/mesh.cpp:377-389, src/linear_algebra.cpp:54-72, src/tetra.cpp:382-391)

The tetrahedrons are values of a type `T`; `mag t` stands for `isMagnetic(t)` and `gauss t` for the list of
integration points `t.getPtGauss()`. An access out of bounds is undefined behaviour; the model returns `none`.
-/

namespace Verif.ExtField

variable {T : Type}

/-- `magTet`, mesh.h:115-125: indices of the magnetic tetrahedrons. `te.idx` is the position of `te` in the vector
`tet` (read.cpp:24-25) -/
def magTet (mag : T → Bool) (tet : List T) : List ℕ :=
  tet.zipIdx.filterMap fun (te, idx) => if mag te then some idx else none

/-- `mesh::setExtSpaceField`, mesh.cpp:377-389: the field at the integration points of the tetrahedrons of `magTet`,
one after the other; `fieldSpace` is `settings.getFieldSpace` -/
def setExtSpaceField (mag : T → Bool) (gauss : T → List V3) (fieldSpace : V3 → V3) (tet : List T) : List (List V3) :=
  (magTet mag tet).filterMap fun idx => tet[idx]?.map fun t => (gauss t).map fieldSpace

/-- the value read for the tetrahedron at position `idx`: `extSpaceField[tet.idx]`, linear_algebra.cpp:63, and
`spaceField[idx]`, tetra.cpp:386 -/
def readField (extSpaceField : List (List V3)) (idx : ℕ) : Option (List V3) := extSpaceField[idx]?

end Verif.ExtField
