import Mathlib.Logic.Relation
import Verif.Model.Electro

/-!
# Specification of the electrostatic and spin diffusion problems
-/

namespace Verif.Electro

open Verif.Mesh

/-- exactly one entry of the list satisfies `P` -/
def ExactlyOne {α : Type} (l : List α) (P : α → Prop) : Prop :=
  ∃ before a after, l = before ++ a :: after ∧ P a ∧ ∀ b ∈ before ++ after, ¬ P b

/-- weak form of the potential problem: the integral of `σ ∇w·∇V` over the tetrahedrons plus the integral of `j w` over
the triangles, for piecewise linear `w` and `V` (`detJ / 6` is the volume of an element, the mean of a linear function over
a triangle is that of its nodal values) -/
noncomputable def weakForm (p : ℕ → V3) (sigma : ℕ → ℝ) (J : ℕ → ℝ) (tets : List Tet) (tris : List Tri) (w V : ℕ → ℝ) : ℝ :=
  (tets.map fun t => sigma t.reg * (Tetra.detJ (MeshElem.nod4 p t) / 6) *
    (Tetra.gradV (MeshElem.nod4 p t) (MeshElem.nod4 w t)).dot
      (Tetra.gradV (MeshElem.nod4 p t) (MeshElem.nod4 V t))).sum
  + (tris.map fun f => J f.reg * TriElem.surf (MeshElem.nod3 p f) *
    ((w (f.ind 0) + w (f.ind 1) + w (f.ind 2)) / 3)).sum

/-- `V` solves the potential problem outside the nodes `S`: the weak form vanishes for every test function that vanishes
on `S` -/
def WeakPotential (p : ℕ → V3) (sigma : ℕ → ℝ) (J : ℕ → ℝ) (tets : List Tet) (tris : List Tri) (S : ℕ → Prop)
    (V : ℕ → ℝ) : Prop :=
  ∀ w : ℕ → ℝ, (∀ i, S i → w i = 0) → weakForm p sigma J tets tris w V = 0

/-- the hat function of a node -/
def hat (i k : ℕ) : ℝ := if k = i then 1 else 0

/-- two nodes of the same conducting tetrahedron -/
def Conducts (sigma : ℕ → ℝ) (tets : List Tet) (a b : ℕ) : Prop :=
  ∃ t ∈ tets, 0 < sigma t.reg ∧ (∃ i, t.ind i = a) ∧ ∃ k, t.ind k = b

/-- every node is joined to a node of `S` through conducting tetrahedrons -/
def Connected (nod : ℕ) (sigma : ℕ → ℝ) (tets : List Tet) (S : ℕ → Prop) : Prop :=
  ∀ i, i < nod → ∃ k, k < nod ∧ S k ∧ Relation.ReflTransGen (Conducts sigma tets) i k

/-- nodes of the surfaces with a potential -/
def OnPotential (prm : ℕ → SurfPrm) (tris : List Tri) (i : ℕ) : Prop :=
  ∃ f ∈ tris, ¬ (prm f.reg).V.IsNan ∧ ∃ k, f.ind k = i

end Verif.Electro
