import Mathlib.Analysis.SpecialFunctions.Trigonometric.Inverse
import Mathlib.Algebra.Order.Group.Multiset
import Verif.Model.Fl

/-!
# Maximum angle between adjacent magnetizations (`mesh::max_angle`, src/mesh.h:295-306)

`double` is `Fl`: exact finite values, infinities, NaN. The magnetization of a node outside the magnetic regions
is a vector of NaN (mesh.h:229-235).
-/

namespace Verif.MaxAngle

/-- `Eigen::Vector3d` of IEEE numbers -/
structure FV where
  x : Fl
  y : Fl
  z : Fl

/-- Eigen `dot` -/
noncomputable def FV.dot (a b : FV) : Fl := a.x * b.x + a.y * b.y + a.z * b.z

open Classical in
/-- `std::min(a, b)`: `(b < a) ? b : a` -/
noncomputable def stdMin (a b : Fl) : Fl := if a.gt b then b else a

open Classical in
/-- `std::acos` -/
noncomputable def acos : Fl → Fl
  | .fin x => if -1 ≤ x ∧ x ≤ 1 then .fin (Real.arccos x) else .nan
  | _ => .nan

/-- the results that the C++ standard allows for a reduction: the values are combined pairwise, in any order and
with any grouping (GENERALIZED_SUM, [numerics.defns]) -/
inductive Reduces {α : Type} (op : α → α → α) : Multiset α → α → Prop
  | leaf (x : α) : Reduces op {x} x
  | node {A B : Multiset α} {a b : α} : Reduces op A a → Reduces op B b → Reduces op (A + B) (op a b)

/-- `mesh::max_angle` may return `r`, mesh.h:295-306; `u` is `getNode_u` -/
def MaxAngle (u : ℕ → FV) (edges : List (ℕ × ℕ)) (r : Fl) : Prop :=
  ∃ m, Reduces stdMin ({Fl.fin 1} + (edges.map fun e => (u e.1).dot (u e.2) : List Fl)) m ∧ r = acos m

end Verif.MaxAngle
