import Mathlib.Analysis.Calculus.Deriv.Basic
import Verif.Model.V3

/-!
# Specification: the equation of Landau, Lifshitz and Gilbert for a uniform magnetization

One unit vector `y`, a function of the time, in a field `H(y)` which is the sum of a constant field, of a field depending linearly on
`y` (the demagnetizing field) and of the field of a uniaxial anisotropy.
-/

namespace Verif.MacroSpin

/-- a 3×3 matrix, by rows -/
structure Mat where
  r1 : V3
  r2 : V3
  r3 : V3

def Mat.app (M : Mat) (u : V3) : V3 := ⟨M.r1.dot u, M.r2.dot u, M.r3.dot u⟩

/-- the constants of the equation: gyromagnetic ratio, damping, applied field, demagnetizing tensor (with its sign), anisotropy field
and its axis -/
structure Body where
  gamma : ℝ
  alpha : ℝ
  H0 : V3
  N : Mat
  Hk : ℝ
  axis : V3

/-- the field acting on the magnetization `u` -/
def Body.field (b : Body) (u : V3) : V3 := b.H0 + b.N.app u + (b.Hk * b.axis.dot u) * b.axis

/-- `f` has the derivative `w` at the time `t` (seen from the set of times `s`) -/
structure HasDeriv (f : ℝ → V3) (w : V3) (s : Set ℝ) (t : ℝ) : Prop where
  x : HasDerivWithinAt (fun t => (f t).x) w.x s t
  y : HasDerivWithinAt (fun t => (f t).y) w.y s t
  z : HasDerivWithinAt (fun t => (f t).z) w.z s t

/-- the equation of Landau, Lifshitz and Gilbert `dy/dt = -gamma y × H + alpha y × dy/dt` from `t0` to `T` -/
def Body.Motion (b : Body) (t0 T : ℝ) (y : ℝ → V3) : Prop :=
  ∀ t ∈ Set.Icc t0 T, ∃ w : V3, HasDeriv y w (Set.Icc t0 T) t ∧ w = -(b.gamma * (y t).cross (b.field (y t))) + b.alpha * (y t).cross w

/-- the same body in another applied field -/
def Body.at (b : Body) (h : V3) : Body := { b with H0 := h }

/-- the same equation with an applied field `h` that depends on the time -/
def Body.Driven (b : Body) (h : ℝ → V3) (t0 T : ℝ) (y : ℝ → V3) : Prop :=
  ∀ t ∈ Set.Icc t0 T, ∃ w : V3, HasDeriv y w (Set.Icc t0 T) t ∧
    w = -(b.gamma * (y t).cross ((b.at (h t)).field (y t))) + b.alpha * (y t).cross w

end Verif.MacroSpin
