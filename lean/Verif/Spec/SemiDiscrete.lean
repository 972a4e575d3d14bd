import Mathlib.Analysis.Calculus.ContDiff.Defs
import Verif.Spec.WeakForm

/-!
# Specification: the equation of motion discretised in space only

The weak form of the Landau-Lifshitz-Gilbert equation on the mesh, without any time step: the unknown is `v = (du/dt) / gamma0` at
the magnetic nodes. Fields are given by their values at the nodes (`u`, `phi`) or at the Gauss points (`Hext`, `Hst`).
-/

namespace Verif.SemiDiscrete

open Verif.Mesh Verif.Tetra Verif.WeakForm Verif.Llg

/-- the anisotropy field of a magnetization `U`: minus the gradient of `-K (uk·U)²` and of the cubic energy
`K3 ((ex·U)² (ey·U)² + (ey·U)² (ez·U)² + (ez·U)² (ex·U)²)` over `mu0 Ms`, for a unit vector `U` -/
noncomputable def anisoField (m : Prm) (mu0 : ℝ) (U : V3) : V3 :=
  (2 * m.K / (mu0 * m.Ms) * m.uk.dot U) * m.uk
  - (2 * m.K3 / (mu0 * m.Ms)) * ((m.ex.dot U * (1 - m.ex.dot U * m.ex.dot U)) * m.ex
      + (m.ey.dot U * (1 - m.ey.dot U * m.ey.dot U)) * m.ey + (m.ez.dot U * (1 - m.ez.dot U * m.ez.dot U)) * m.ez)

/-- work of the exchange field, of the demagnetizing field of potential `phi`, of the applied field, of the anisotropy field and of
the spin accumulation field in a displacement `w` of the magnetization `u` of one tetrahedron with nodes at `p` -/
noncomputable def tetWork (G : Rule) (m : Prm) (mu0 : ℝ) (p u : Fin 4 → V3) (phi : Fin 4 → ℝ) (Hext Hst : Fin G.n → V3)
    (w : Fin 4 → V3) : ℝ :=
  -(2 * m.A / (mu0 * m.Ms)) * calcVol G p * gradDot p u w
    + work G p (fun j => interpField p phi + Hext j + anisoField m mu0 (interpV G u j) + Hst j) w

/-- the same for the whole sample, with the surface anisotropy -/
noncomputable def totalWork (G : Rule) (H : TriElem.Rule) (prm : ℕ → Prm) (sprm : ℕ → SurfPrm) (mu0 : ℝ) (tets : List Tet)
    (tris : List (Tri × ℝ)) (p u : ℕ → V3) (phi : ℕ → ℝ) (Hext Hst : Tet → Fin G.n → V3) (w : ℕ → V3) : ℝ :=
  (tets.map fun t => tetWork G (prm t.reg) mu0 (fun k => p (t.ind k)) (fun k => u (t.ind k)) (fun k => phi (t.ind k)) (Hext t)
      (Hst t) (fun k => w (t.ind k))).sum
  + (tris.map fun f => surfaceWork H (sprm f.1.reg) f.2 (fun k => p (f.1.ind k)) (fun k => u (f.1.ind k))
      (fun k => w (f.1.ind k))).sum

/-- `v` is the velocity of the magnetization `u`: orthogonal to it, and damping plus gyration balance the work of all fields in
every displacement `w` orthogonal to `u` -/
def Velocity (G : Rule) (H : TriElem.Rule) (prm : ℕ → Prm) (sprm : ℕ → SurfPrm) (mu0 : ℝ) (magN : ℕ → Prop) (tets : List Tet)
    (tris : List (Tri × ℝ)) (p u : ℕ → V3) (phi : ℕ → ℝ) (Hext Hst : Tet → Fin G.n → V3) (v : ℕ → V3) : Prop :=
  (∀ i, magN i → (v i).dot (u i) = 0) ∧
  ∀ w : ℕ → V3, (∀ i, magN i → (w i).dot (u i) = 0) →
    (tets.map fun t =>
        damping G (fun k => p (t.ind k)) (fun _ => (prm t.reg).alpha) (fun k => v (t.ind k)) (fun k => w (t.ind k))
        + gyration G (fun k => p (t.ind k)) (fun k => u (t.ind k)) (fun k => v (t.ind k)) (fun k => w (t.ind k))).sum
      = totalWork G H prm sprm mu0 tets tris p u phi Hext Hst w

/-- continuously differentiable, component by component -/
structure SmoothV {Z : Type*} [NormedAddCommGroup Z] [NormedSpace ℝ Z] (f : Z → V3) : Prop where
  x : ContDiff ℝ 1 fun z => (f z).x
  y : ContDiff ℝ 1 fun z => (f z).y
  z : ContDiff ℝ 1 fun z => (f z).z

end Verif.SemiDiscrete
