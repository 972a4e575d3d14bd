import Verif.Model.Electro
import Verif.Model.MeshElem

/-!
# The torque of the spin accumulation on the magnetization

`spinAcc::prepareExtraField`, `spinAcc::compute` (src/spinAccumulationSolver.cpp:138-164), `Tetra::calc_Hst`
(src/tetra.cpp:93-106).
-/

namespace Verif.SpinTorque

open Verif.Mesh Verif.MeshElem Verif.Electro

/-- `calc_Hst`, tetra.cpp:93-106: `prefactor * s_nod * eigen_a` -/
noncomputable def calcHst (G : Tetra.Rule) (prefactor : ℝ) (s : ℕ → V3) (t : Tet) (j : Fin G.n) : V3 :=
  prefactor * Tetra.interpV G (nod4 s t) j

/-- `prefactor`, spinAccumulationSolver.cpp:144-145 -/
noncomputable def prefactor (c : Consts) (m : VolPrm) (gamma0 Ms : ℝ) : ℝ :=
  diffusionCst c m / (m.lsd * m.lsd * gamma0 * Ms)

/-- what `extraField` adds to `Hst` (tetra.cpp:252-254): set for the elements of `magTet` by `prepareExtraField`
(spinAccumulationSolver.cpp:139-149) when `spin_acc` is on (line 32); nothing otherwise (tetra.h:159) -/
noncomputable def extraField (G : Tetra.Rule) (spinAcc : Bool) (c : Consts) (mag : ℕ → Bool) (vol : ℕ → VolPrm) (gamma0 : ℝ)
    (Ms : ℕ → ℝ) (s : ℕ → V3) (t : Tet) (j : Fin G.n) : V3 :=
  if spinAcc && t.isMagnetic mag then calcHst G (prefactor c (vol t.reg) gamma0 (Ms t.reg)) s t j else 0

/-- `s` after `compute`, spinAccumulationSolver.cpp:151-164: what was solved, or zero everywhere -/
def afterCompute (converged : Bool) (x : ℕ → V3) : ℕ → V3 := if converged then x else fun _ => 0

end Verif.SpinTorque
