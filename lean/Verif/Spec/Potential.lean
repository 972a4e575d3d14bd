import Mathlib.Analysis.SpecialFunctions.PolarCoord
import Verif.Model.V3

/-!
# Potential of a charged triangle (specification)
-/

namespace Verif.Potential

open MeasureTheory

/-- the reference triangle -/
def refTri : Set (ℝ × ℝ) := {q | 0 < q.1 ∧ 0 < q.2 ∧ q.1 + q.2 < 1}

/-- the point of the triangle `(a, b, c)` with reference coordinates `q` -/
def point (a b c : V3) (q : ℝ × ℝ) : V3 := a + q.1 * (b - a) + q.2 * (c - a)

/-- the function that is affine on the triangle and takes the values `fa`, `fb`, `fc` at its vertices -/
def affine (fa fb fc : ℝ) (q : ℝ × ℝ) : ℝ := (1 - q.1 - q.2) * fa + q.1 * fb + q.2 * fc

/-- ratio of the area of the triangle `(a, b, c)` to that of the reference triangle -/
noncomputable def areaRatio (a b c : V3) : ℝ := (V3.cross (b - a) (c - a)).norm

/-- the integrand of `surfacePotential` -/
noncomputable def integrand (a b c y : V3) (sigma : ℝ × ℝ → ℝ) (q : ℝ × ℝ) : ℝ :=
  sigma q / (point a b c q - y).norm * areaRatio a b c

/-- `∫ σ(x) / |x - y| dS(x)` over the triangle `(a, b, c)` -/
noncomputable def surfacePotential (a b c y : V3) (sigma : ℝ × ℝ → ℝ) : ℝ :=
  ∫ q in refTri, integrand a b c y sigma q

end Verif.Potential
