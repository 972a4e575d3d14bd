import Verif.Model.Fl
import Verif.Model.Settings

/-!
# Directions in the settings (src/settings.cpp)
-/

namespace Verif.Settings

open Classical in
/-- `Vector3d::normalize` of Eigen, called at settings.cpp:63: `z = squaredNorm(); if (z > 0) *this /= sqrt(z)` -/
noncomputable def eigenNormalize (v : Fl × Fl × Fl) : Fl × Fl × Fl :=
  let z := v.1 * v.1 + v.2.1 * v.2.1 + v.2.2 * v.2.2
  if z.gt 0 then (v.1 / z.sqrt, v.2.1 / z.sqrt, v.2.2 / z.sqrt) else v

/-- `a.dot(b)` -/
noncomputable def flDot (a b : Fl × Fl × Fl) : Fl := a.1 * b.1 + a.2.1 * b.2.1 + a.2.2 * b.2.2

open Classical in
/-- `isOrthogonal`, settings.cpp:121-128; `x < precision` is `precision > x` -/
noncomputable def isOrthogonal (a b c : Fl × Fl × Fl) (precision : ℝ) : Bool :=
  let val := decide ((Fl.fin precision).gt (flDot a b).abs)
  let val := val && decide ((Fl.fin precision).gt (flDot b c).abs)
  val && decide ((Fl.fin precision).gt (flDot c a).abs)

/-- whether the warning "(ex, ey, ez) is not orthogonal" is printed for a region, settings.cpp:411-412; nothing else happens -/
noncomputable def warns (p : TetraPrm Fl) (userTol : ℝ) : Bool := !isOrthogonal p.ex p.ey p.ez userTol

end Verif.Settings
