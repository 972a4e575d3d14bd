import Mathlib.Data.Real.Basic
import Verif.Model.SortNodes

/-!
# Specification of the renumbering of the nodes
-/

namespace Verif.SortNodes

open Verif.Mesh

/-- contract of `std::sort` on a list `l` with comparison `lt`: the result is a rearrangement of `l` where no
element is smaller than an element before it. Equal elements may come in any order. -/
def IsStdSort {β : Type} (lt : β → β → Prop) (l l' : List β) : Prop :=
  l'.Perm l ∧ l'.Pairwise fun a b => ¬ lt b a

/-- comparison function of mesh.cpp:340-341 on node indices; `pos` is the coordinate along the axis -/
def lessAlong {α : Type} (pos : α → ℝ) (node : List α) (a b : ℕ) : Prop :=
  ∃ x y, node[a]? = some x ∧ node[b]? = some y ∧ pos x < pos y

/-- all elements refer to existing nodes -/
def Valid {α : Type} (m : Msh α) : Prop :=
  (∀ t ∈ m.tet, ∀ i, t.ind i < m.node.length) ∧ (∀ t ∈ m.tri, ∀ i, t.ind i < m.node.length)

/-- same region and the same nodes (as values) at the same local vertices, in both meshes -/
def SameTet {α : Type} (m m' : Msh α) (t t' : Tet) : Prop :=
  t'.reg = t.reg ∧ ∀ i, m'.node[t'.ind i]? = m.node[t.ind i]? ∧ m'.nodeIndex[t.ind i]? = some (t'.ind i)

/-- same region and the same nodes (as values) at the same local vertices, in both meshes -/
def SameTri {α : Type} (m m' : Msh α) (t t' : Tri) : Prop :=
  t'.reg = t.reg ∧ ∀ i, m'.node[t'.ind i]? = m.node[t.ind i]? ∧ m'.nodeIndex[t.ind i]? = some (t'.ind i)

end Verif.SortNodes
