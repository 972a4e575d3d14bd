import Verif.Model.Recenter
import Verif.Model.Fl

/-!
# Recentering with the NaN of non-magnetic nodes (src/recentering.cpp:47-131)

The same function as `Model/Recenter.lean`, with magnetizations that may be vectors of NaN: those of the non-magnetic nodes are
(mesh.h:229-234). Positions, the bounding box and the average over the magnetic tetrahedrons are finite. The search of the ANN
library is a parameter which is also defined for points whose coordinates are NaN.
-/

namespace Verif.Recenter

/-- three numbers -/
abbrev F3 := Fin 3 → Fl

/-- a point with finite coordinates -/
def F3.of (p : V3) : F3 := fun k => .fin (p.comp k)

/-- the mesh as seen by `recenter` -/
structure GeoF (n : ℕ) where
  /-- `msh.c` -/
  c : V3
  /-- `msh.l` -/
  l : V3
  /-- `getNode_p` -/
  p : Fin n → V3
  /-- `kdtree->annkSearch`: all nodes of the mesh are in the tree, fem.h:72-84 -/
  nearest : F3 → Fin n

/-- outcome: returns `false`, exit, or new values of `d[CURRENT].u` -/
inductive ResultF (n : ℕ) where
  | unchanged
  | noWall
  | shifted (u : Fin n → F3)

/-- `a * p_dir` where `p_dir` is a unit vector of the axes: Eigen multiplies each component -/
noncomputable def scaleUnit (a : Fl) (k : Fin 3) : F3 := fun j => a * .fin ((V3.unit k).comp j)

open Classical in
/-- the two tests of recentering.cpp:107-114 -/
noncomputable def clampF {n : ℕ} (g : GeoF n) (k : Fin 3) (p1 : F3) : F3 :=
  let p2 := if (p1 k - .fin (g.c.comp k)).gt (.fin (1 / 2 * g.l.comp k)) then F3.of (g.c + (1 / 2 * g.l.comp k) * V3.unit k) else p1
  if (Fl.fin (-(1 / 2) * g.l.comp k)).gt (p2 k - .fin (g.c.comp k)) then F3.of (g.c - (1 / 2 * g.l.comp k) * V3.unit k) else p2

/-- recentering.cpp:105-114 -/
noncomputable def sourceF {n : ℕ} (g : GeoF n) (k : Fin 3) (D : Fl) (p : V3) : F3 :=
  clampF g k fun j => .fin (p.comp j) + scaleUnit D k j

open Classical in
/-- `Fem::recenter`, recentering.cpp:47-131, with the average `m` of line 60 and the magnetizations `u` (`NEXT`) -/
noncomputable def recenterF {n : ℕ} (g : GeoF n) (m : ℝ) (thres : ℝ) (ch : ℤ) (u : Fin n → F3) : ResultF n :=
  let k := switchDir ch
  if |m| < |thres| then .unchanged
  else
    let uL := u (g.nearest (F3.of (g.c - ((1 / 2 : ℝ) * g.l.comp k) * V3.unit k))) k
    let uR := u (g.nearest (F3.of (g.c + ((1 / 2 : ℝ) * g.l.comp k) * V3.unit k))) k
    if (uL * uR).gt (.fin 0) then .noWall
    else
      let D := .fin m * .fin (1 / 2) * .fin (g.l.comp k) * uL
      .shifted fun i => u (g.nearest (sourceF g k D (g.p i)))

end Verif.Recenter
