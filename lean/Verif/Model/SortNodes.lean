import Verif.Model.Mesh

/-!
# Renumbering of the nodes (`mesh::sortNodes`, src/mesh.cpp:334-367)

The nodes are opaque values of a type `α`. `std::sort` is represented by its result: the theorems hold for
every result allowed by its contract (Spec/SortNodes.lean).
An index out of range is undefined behaviour in the code; the model returns `none`.
-/

namespace Verif.SortNodes

open Verif.Mesh

/-- the part of `class mesh` that is touched by `sortNodes`: `node`, `tet`, `tri`, `node_index` -/
structure Msh (α : Type) where
  node : List α
  tet : List Tet
  tri : List Tri
  nodeIndex : List ℕ

/-- `node_index.resize(node.size()); for (i…) node_index[permutation[i]] = i;`, mesh.cpp:342-344
(`node_index` is empty before) -/
def inverse (n : ℕ) (perm : List ℕ) : List ℕ :=
  perm.zipIdx.foldl (fun idx p => idx.set p.1 p.2) (List.replicate n 0)

/-- relabelling of the vertices of one element, mesh.cpp:355-358 and 363-365 -/
def relabel {k : ℕ} (idx : List ℕ) (ind : Fin k → ℕ) : Option (Fin k → ℕ) :=
  if h : ∀ i, ind i < idx.length then some fun i => idx[ind i]'(h i) else none

/-- mesh.cpp:352-359 -/
def relabelTet (idx : List ℕ) (t : Tet) : Option Tet := (relabel idx t.ind).map fun i => { t with ind := i }

/-- mesh.cpp:360-366 -/
def relabelTri (idx : List ℕ) (t : Tri) : Option Tri := (relabel idx t.ind).map fun i => { t with ind := i }

/-- `mesh::sortNodes`, mesh.cpp:334-367; `perm` is the array `permutation` after `std::sort` (line 341) -/
def sortNodes {α : Type} (perm : List ℕ) (m : Msh α) : Option (Msh α) := do
  let idx := inverse m.node.length perm
  let node ← perm.mapM fun i => m.node[i]?
  let tet ← m.tet.mapM (relabelTet idx)
  let tri ← m.tri.mapM (relabelTri idx)
  return ⟨node, tet, tri, idx⟩

end Verif.SortNodes
