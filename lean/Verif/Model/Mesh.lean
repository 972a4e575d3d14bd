import Mathlib.Data.List.Sort
import Mathlib.Data.List.FinRange
import Mathlib.Data.Prod.Lex

/-!
# Topology of the mesh (src/mesh.h, src/meshUtils.h)

Elements are reduced to their node indices and region index; positions are in other files.
-/

namespace Verif.Mesh

/-- `Tetra::Tet`: node indices (element.h:53) and index of the volume region (element.h:56) -/
structure Tet where
  ind : Fin 4 → ℕ
  reg : ℕ

/-- `Triangle::Tri`: node indices and index of the surface region -/
structure Tri where
  ind : Fin 3 → ℕ
  reg : ℕ

/-- `std::minmax` of two indices, used at mesh.h:108 -/
def minmax (a b : ℕ) : ℕ × ℕ := if b < a then (b, a) else (a, b)

/-- the six edges pushed for one tetrahedron, mesh.h:102-110 -/
def tetEdges (t : Tet) : List (ℕ × ℕ) :=
  [minmax (t.ind 0) (t.ind 1), minmax (t.ind 0) (t.ind 2), minmax (t.ind 0) (t.ind 3),
   minmax (t.ind 1) (t.ind 2), minmax (t.ind 1) (t.ind 3), minmax (t.ind 2) (t.ind 3)]

/-- `std::unique` followed by `erase`/`resize`: drops every element equal to the one kept just before -/
def unique {β : Type} [DecidableEq β] : List β → List β
  | [] => []
  | [a] => [a]
  | a :: b :: l => if a = b then unique (a :: l) else a :: unique (b :: l)
termination_by l => l.length

/-- `suppress_copies`, meshUtils.h:49-55 (`std::sort` on a total order: the result does not depend on the
algorithm) -/
def suppressCopies (l : List ℕ) : List ℕ := unique (l.insertionSort (· ≤ ·))

/-- `std::pair::operator<=` (lexicographic), used to sort the edges, mesh.h:108 -/
def pairLE (a b : ℕ × ℕ) : Prop := a.1 < b.1 ∨ (a.1 = b.1 ∧ a.2 ≤ b.2)

instance : DecidableRel pairLE := fun a b => by unfold pairLE; infer_instance

/-- the list of edges, mesh.h:100-113 -/
def edges (tets : List Tet) : List (ℕ × ℕ) := unique ((tets.flatMap tetEdges).insertionSort pairLE)

/-- `isMagnetic(Tet)`, mesh.h:330-332: `mag r` stands for `paramTetra[r].Ms > 0` -/
def Tet.isMagnetic (mag : ℕ → Bool) (t : Tet) : Bool := mag t.reg

/-- `magNode`, mesh.h:115-125 (a write past the end is undefined behaviour; here it is ignored, theorems
assume indices in range) -/
def magNode (mag : ℕ → Bool) (nod : ℕ) (tets : List Tet) : List Bool :=
  tets.foldl (fun l t =>
    if t.isMagnetic mag then (((l.set (t.ind 0) true).set (t.ind 1) true).set (t.ind 2) true).set (t.ind 3) true
    else l) (List.replicate nod false)

/-- `magTet`, mesh.h:117-125, as the list of the elements -/
def magTet (mag : ℕ → Bool) (tets : List Tet) : List Tet := tets.filter (·.isMagnetic mag)

/-- `isMagnetic(Tri)`, mesh.h:334-336 -/
def Tri.isMagnetic (magN : List Bool) (f : Tri) : Bool :=
  magN.getD (f.ind 0) false && magN.getD (f.ind 1) false && magN.getD (f.ind 2) false

end Verif.Mesh
