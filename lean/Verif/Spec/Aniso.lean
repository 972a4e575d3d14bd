import Mathlib.Analysis.Calculus.Deriv.Basic
import Verif.Model.V3Sum

/-!
# Anisotropy energy densities and the forces that derive from them
-/

namespace Verif.Aniso

/-- uniaxial energy density -/
def uniax (K : ℝ) (uk u : V3) : ℝ := -K * (uk.dot u) ^ 2

/-- cubic energy density -/
def cubic (K3 : ℝ) (ex ey ez u : V3) : ℝ :=
  K3 * ((u.dot ex) ^ 2 * (u.dot ey) ^ 2 + (u.dot ey) ^ 2 * (u.dot ez) ^ 2 + (u.dot ez) ^ 2 * (u.dot ex) ^ 2)

/-- derivative of an energy at `X` in the direction `w` -/
noncomputable def slope (E : V3 → ℝ) (X w : V3) : ℝ := deriv (fun τ : ℝ => E (X + τ * w)) 0

/-- The field `H s`, extrapolated over the time `s` from the magnetization `U` and its velocity `V`, derives from
the energy density `E` to first order in `s`: for tangent directions `w`, `c H · w` and minus the slope of `E`
at `U + s V` have the same value and the same derivative at `s = 0`. -/
def DerivesFrom (E : V3 → ℝ) (c : ℝ) (H : ℝ → V3 → V3 → V3) : Prop :=
  ∀ U V w, U.nsq = 1 → U.dot V = 0 → U.dot w = 0 →
    c * (H 0 U V).dot w = -slope E U w ∧
    HasDerivAt (fun s : ℝ => slope E (U + s * V) w + c * (H s U V).dot w) 0 0

end Verif.Aniso
