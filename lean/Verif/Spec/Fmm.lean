import Verif.Model.V3

/-!
# Specification of the charges seen by the potential solver
-/

namespace Verif.Fmm

/-- a point charge for each integration point of each element: position and charge -/
def pointCharges {E : Type} (npi : ℕ) (gauss : E → ℕ → V3) (charge : E → ℕ → ℝ) (elems : List E) : List (V3 × ℝ) :=
  elems.flatMap fun e => (List.range npi).map fun j => (gauss e j, charge e j)

/-- Coulomb potential of point charges (without the factor 1/4π) -/
noncomputable def coulomb (charges : List (V3 × ℝ)) (x : V3) : ℝ :=
  (charges.map fun q => q.2 / (x - q.1).norm).sum

end Verif.Fmm
