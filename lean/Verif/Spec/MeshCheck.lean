import Mathlib.Algebra.BigOperators.Fin
import Mathlib.Algebra.Order.Group.Multiset
import Verif.Model.Mesh

/-!
# Specification of the mesh check, in terms of vertex sets

Vertex sets are multisets so that degenerate elements need no special treatment.
-/

namespace Verif.MeshCheck

open Verif.Mesh

/-- the vertices of a surface triangle -/
def verts (f : Tri) : Multiset ℕ := {f.ind 0, f.ind 1, f.ind 2}

/-- the vertices of the face opposite to vertex `k` -/
def face (t : Tet) (k : Fin 4) : Multiset ℕ := (Finset.univ.erase k).val.map t.ind

/-- the regions of the tetrahedrons having `s` as a face, one entry for each -/
def incident (tets : List Tet) (s : Multiset ℕ) : Multiset ℕ :=
  (tets.map fun t => ∑ k : Fin 4, if face t k = s then {t.reg} else 0).sum

/-- the meshes to accept -/
structure Consistent (tets : List Tet) (tris : List Tri) : Prop where
  nonempty : tets ≠ []
  /-- no face belongs to more than two tetrahedrons -/
  atMostTwo : ∀ s, (incident tets s).card ≤ 2
  /-- no two surface triangles coincide -/
  noCopy : tris.Pairwise fun f g => verts f ≠ verts g
  /-- every surface triangle is a face of some tetrahedron -/
  attached : ∀ f ∈ tris, incident tets (verts f) ≠ 0
  /-- no surface triangle lies inside one region -/
  notInside : ∀ f ∈ tris, ∀ r, incident tets (verts f) ≠ {r, r}

/-- `s` is a face on the outer boundary or between two different regions -/
def OnBoundary (tets : List Tet) (s : Multiset ℕ) : Prop :=
  (∃ r, incident tets s = {r}) ∨ ∃ r r', r ≠ r' ∧ incident tets s = {r, r'}

end Verif.MeshCheck
