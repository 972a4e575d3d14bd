import Verif.Model.Mesh
import Verif.Model.Tetra

/-! Specification of the average that `mesh::avg` approximates, for given weights and volume. -/

namespace Verif.Rounded

open Verif.Mesh

/-- the tetrahedron counts for the average: it is magnetic, and of the region if one is given -/
def Counts (mag : ℕ → Bool) (region : Option ℕ) (t : Tet) : Prop := mag t.reg = true ∧ (region = none ∨ region = some t.reg)

open Classical in
/-- the integral divided by the volume: each tetrahedron that counts contributes the values at its Gauss points times the weights -/
noncomputable def TrueAvg (G : Tetra.Rule) (wt : Tet → Fin G.n → ℝ) (V : ℝ) (mag : ℕ → Bool) (tets : List Tet) (f : ℕ → ℝ) (region : Option ℕ) : ℝ :=
  (tets.map fun t => if Counts mag region t then ∑ j, wt t j * ∑ i, G.a i j * f (t.ind i) else 0).sum / V

open Classical in
/-- sum of the moduli of the weights -/
noncomputable def AbsWeight (G : Tetra.Rule) (wt : Tet → Fin G.n → ℝ) (mag : ℕ → Bool) (tets : List Tet) (region : Option ℕ) : ℝ :=
  (tets.map fun t => if Counts mag region t then ∑ j, |wt t j| else 0).sum

end Verif.Rounded
