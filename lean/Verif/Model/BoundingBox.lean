import Verif.Model.V3

/-!
# Bounding box of the mesh (src/mesh.h:51-79, src/mesh.cpp:108-119)

Exact reals stand for `double`.
-/

namespace Verif.BoundingBox

/-- `__DBL_MAX__` -/
noncomputable def dblMax : ℝ := (2 - 1 / 2 ^ 52) * 2 ^ 1023

/-- `__DBL_MIN__`: the smallest positive normal number -/
noncomputable def dblMin : ℝ := 1 / 2 ^ 1022

open Classical in
/-- `mesh::doOnNodes`, mesh.cpp:108-119; `what` is `whatToDo` -/
noncomputable def doOnNodes (init : ℝ) (coord : Fin 3) (what : ℝ → ℝ → Prop) (node : List V3) : ℝ :=
  node.foldl (fun result p => if what (p.comp coord) result then p.comp coord else result) init

/-- `mesh::minNodes`, mesh.h:412-416 -/
noncomputable def minNodes (coord : Fin 3) (node : List V3) : ℝ := doOnNodes dblMax coord (fun a b => a < b) node

/-- `mesh::maxNodes`, mesh.h:419-423 -/
noncomputable def maxNodes (coord : Fin 3) (node : List V3) : ℝ := doOnNodes dblMin coord (fun a b => a > b) node

/-- `mesh::l`, mesh.h:60 -/
noncomputable def lengths (node : List V3) : V3 :=
  ⟨maxNodes 0 node - minNodes 0 node, maxNodes 1 node - minNodes 1 node, maxNodes 2 node - minNodes 2 node⟩

/-- `mesh::c`, mesh.h:61 -/
noncomputable def center (node : List V3) : V3 :=
  ⟨1 / 2 * (maxNodes 0 node + minNodes 0 node), 1 / 2 * (maxNodes 1 node + minNodes 1 node),
   1 / 2 * (maxNodes 2 node + minNodes 2 node)⟩

open Classical in
/-- `long_axis`, mesh.h:64-78 -/
noncomputable def longAxis (l : V3) : Fin 3 :=
  if l.x > l.y then (if l.x > l.z then 0 else 2) else (if l.y > l.z then 1 else 2)

end Verif.BoundingBox
