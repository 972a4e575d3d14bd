import Verif.Model.Rounded
import Verif.Model.MeshElem

/-!
# `mesh::avg` in rounded arithmetic, with a parallel reduction

`std::transform_reduce` with an execution policy (mesh.cpp:93) may group and order the terms in any way: `RSum` contains every result allowed, each
addition being rounded. The weights and the volume are the numbers stored in the elements and regions; the values of the hat functions are
constants.
-/

namespace Verif.Rounded

open Verif.Mesh Verif.MeshElem

/-- the results that a reduction may give: the values are added pairwise, in any order and with any grouping (GENERALIZED_SUM of the C++ standard),
with a rounding error for each addition -/
inductive RSum (ε : ℝ) : Multiset ℝ → ℝ → Prop
  | leaf (x : ℝ) : RSum ε {x} x
  | node {A B : Multiset ℝ} {a b c : ℝ} : RSum ε A a → RSum ε B b → Rnd ε (a + b) c → RSum ε (A + B) c

/-- Eigen `dot` of two vectors of size `m`, and each component of a product of a matrix and a vector -/
def RDot {m : ℕ} (ε : ℝ) (a b : Fin m → ℝ) (z : ℝ) : Prop :=
  ∃ p : Fin m → ℝ, (∀ i, Rnd ε (a i * b i) (p i)) ∧ RSum ε (Finset.univ.val.map p) z

/-- what the function given to `transform_reduce` returns for one tetrahedron, mesh.cpp:95-103 (interpolation: tetra.h:222-232) -/
def RElem (ε : ℝ) (G : Tetra.Rule) (wt : Tet → Fin G.n → ℝ) (f : ℕ → ℝ) (region : Option ℕ) (t : Tet) (x : ℝ) : Prop :=
  if region ≠ some t.reg ∧ region ≠ none then x = 0
  else ∃ val : Fin G.n → ℝ, (∀ j, RDot ε (nod4 f t) (fun i => G.a i j) (val j)) ∧ RDot ε (wt t) val x

/-- `mesh::avg` may return `r`, mesh.cpp:89-106; `wt` are the weights of the elements and `V` is the volume -/
def RAvg (ε : ℝ) (G : Tetra.Rule) (wt : Tet → Fin G.n → ℝ) (V : ℝ) (mag : ℕ → Bool) (tets : List Tet) (f : ℕ → ℝ) (region : Option ℕ) (r : ℝ) : Prop :=
  ∃ (xs : List ℝ) (s : ℝ), List.Forall₂ (RElem ε G wt f region) (magTet mag tets) xs ∧ RSum ε ({0} + (xs : Multiset ℝ)) s ∧ Rnd ε (s / V) r

/-- `volume`, mesh.cpp:104 -/
noncomputable def volumeOf (G : Tetra.Rule) (p : ℕ → V3) (mag : ℕ → Bool) (nreg : ℕ) (tets : List Tet) : Option ℕ → ℝ
  | none => (volumes G p mag nreg tets).2
  | some r => (volumes G p mag nreg tets).1.getD r 0

end Verif.Rounded
