import Verif.Model.Node
import Verif.Model.Text
import Mathlib.Algebra.BigOperators.Fin

/-!
# Recentering (src/recentering.cpp:47-131, its call time_integration.cpp:241, its settings settings.cpp:483-497)

Parameters of the model: the search for the nearest node in the kd-tree (ANN library), and the weights of the nodes
in the volume average of the magnetization (`mesh::avg` is linear in the nodal values; C33 is about its
value). Exact reals. All nodes have a magnetization (NaN at non magnetic nodes is not modelled here).
-/

namespace Verif.Recenter

open Verif.Text

/-- `enum index`, node.h:32-38 -/
def idxX : ℤ := 0
def idxY : ℤ := 1
def idxZ : ℤ := 2

/-- `recentering.direction`, settings.cpp:487-495; `none` if there is an error message and exit -/
def parseDirection (direction : Str) : Option ℤ :=
  match direction with
  | ['X'] => some idxX
  | ['Y'] => some idxY
  | ['Z'] => some idxZ
  | _ => none

/-- the `switch` of recentering.cpp:51-57 on the code of the character; the parameter has type `char` -/
def switchDir (ch : ℤ) : Fin 3 :=
  if ch = ('X'.toNat : ℤ) then 0 else if ch = ('Y'.toNat : ℤ) then 1 else if ch = ('Z'.toNat : ℤ) then 2 else 2

/-- the mesh as seen by `recenter` -/
structure Geo (n : ℕ) where
  /-- `msh.c`, centre of the bounding box -/
  c : V3
  /-- `msh.l`, lengths of the bounding box -/
  l : V3
  /-- weights of the nodes in the volume average -/
  w : Fin n → ℝ
  /-- `kdtree->annkSearch(queryPt, 1, nnIdx, dists, 0.)`, nearest node -/
  nearest : V3 → Fin n

/-- outcome of `recenter` -/
inductive Result (n : ℕ) where
  /-- returns `false` -/
  | unchanged
  /-- "Error No Domain Wall", exit -/
  | noWall
  /-- returns `true` -/
  | shifted (nd : Fin n → Node)

/-- `msh.avg(Nodes::get_u_comp, idx)`, recentering.cpp:60 -/
noncomputable def avg {n : ℕ} (g : Geo n) (nd : Fin n → Node) (k : Fin 3) : ℝ := ∑ i, g.w i * (nd i).next.u.comp k

/-- the shift `D_i`, recentering.cpp:101; `u2L` from lines 71-82 -/
noncomputable def shift {n : ℕ} (g : Geo n) (nd : Fin n → Node) (k : Fin 3) : ℝ :=
  avg g nd k * (1 / 2) * g.l.comp k * (nd (g.nearest (g.c - ((1 / 2 : ℝ) * g.l.comp k) * V3.unit k))).next.u.comp k

open Classical in
/-- the point where the new magnetization of a node at `p` is taken, recentering.cpp:105-114 -/
noncomputable def source {n : ℕ} (g : Geo n) (k : Fin 3) (D : ℝ) (p : V3) : V3 :=
  let p1 := p + D * V3.unit k
  let p2 := if p1.comp k - g.c.comp k > 1 / 2 * g.l.comp k then g.c + (1 / 2 * g.l.comp k) * V3.unit k else p1
  if p2.comp k - g.c.comp k < -(1 / 2) * g.l.comp k then g.c - (1 / 2 * g.l.comp k) * V3.unit k else p2

/-- body of the loop, recentering.cpp:116-123: `set_node_u0` and `set_node_zero_v` (mesh.h:168-172) -/
def setNode (nd : Node) (u : V3) : Node := { nd with cur := { nd.cur with u := u }, next := { nd.next with v := 0 } }

open Classical in
/-- `Fem::recenter`, recentering.cpp:47-131; `ch` is the code of the `char` parameter -/
noncomputable def recenter {n : ℕ} (g : Geo n) (thres : ℝ) (ch : ℤ) (nd : Fin n → Node) : Result n :=
  let k := switchDir ch
  if |avg g nd k| < |thres| then .unchanged
  else
    let uL := (nd (g.nearest (g.c - ((1 / 2 : ℝ) * g.l.comp k) * V3.unit k))).next.u.comp k
    let uR := (nd (g.nearest (g.c + ((1 / 2 : ℝ) * g.l.comp k) * V3.unit k))).next.u.comp k
    if uL * uR > 0 then .noWall
    else .shifted fun i => setNode (nd i) (nd (g.nearest (source g k (shift g nd k) (nd i).p))).next.u

/-- the settings text `direction` and the call of time_integration.cpp:241: the value of the enumeration is converted
to `char`; `none` if the settings are rejected -/
noncomputable def run {n : ℕ} (g : Geo n) (thres : ℝ) (direction : Str) (nd : Fin n → Node) : Option (Result n) :=
  (parseDirection direction).map fun idx => recenter g thres idx nd

end Verif.Recenter
