import Mathlib.Analysis.SpecialFunctions.Integrals.Basic

/-!
# Integrals over the reference simplices (specification)
-/

namespace Verif.Simplex

/-- integral over the reference tetrahedron `u, v, w ≥ 0`, `u + v + w ≤ 1` -/
noncomputable def intTet (f : ℝ → ℝ → ℝ → ℝ) : ℝ :=
  ∫ u in (0 : ℝ)..1, ∫ v in (0 : ℝ)..(1 - u), ∫ w in (0 : ℝ)..(1 - u - v), f u v w

/-- integral over the reference triangle `u, v ≥ 0`, `u + v ≤ 1` -/
noncomputable def intTri (f : ℝ → ℝ → ℝ) : ℝ :=
  ∫ u in (0 : ℝ)..1, ∫ v in (0 : ℝ)..(1 - u), f u v

end Verif.Simplex
