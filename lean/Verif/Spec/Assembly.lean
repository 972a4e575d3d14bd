import Mathlib.Algebra.BigOperators.Group.Finset.Basic
import Mathlib.Algebra.BigOperators.Fin
import Verif.Model.Assembly

/-!
# Specification of assembly: sums of element contributions
-/

namespace Verif.Assembly

open Verif.Mesh Verif.SparseMat

variable {α : Type}

/-- what an element contributes to the coefficient at row `r`, column `c` of a system with `D` unknowns per
node (unknown `d` of node `i` has number `D i + d`; in the element matrix, unknown `d` of local node `k` has
number `d N + k`) -/
def Elem.contribution [AddCommMonoid α] (D : ℕ) {N : ℕ} (e : Elem N α) (r c : ℕ) : α :=
  ∑ ie : Fin N, ∑ je : Fin N, ∑ di ∈ Finset.range D, ∑ dj ∈ Finset.range D,
    if D * e.ind ie + di = r ∧ D * e.ind je + dj = c then e.Ke (di * N + ie) (dj * N + je) else 0

/-- what an element contributes to component `r` of the right hand side -/
def Elem.rhsContribution [AddCommMonoid α] (D : ℕ) {N : ℕ} (e : Elem N α) (r : ℕ) : α :=
  ∑ ie : Fin N, ∑ di ∈ Finset.range D, if D * e.ind ie + di = r then e.Le (di * N + ie) else 0

/-- all node indices of the tetrahedrons are valid (checked when the mesh is read: element.h:119-127) -/
def IndicesValid (nod : ℕ) (tets : List Tet) : Prop := ∀ t ∈ tets, ∀ k, t.ind k < nod

end Verif.Assembly
