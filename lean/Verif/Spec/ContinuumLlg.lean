import Verif.Spec.Continuum
import Verif.Spec.SemiDiscrete
import Verif.Model.MeshElem

/-!
# The Landau-Lifshitz-Gilbert equation of the continuum, in weak form

All integrals are Lebesgue integrals over the solid elements; nothing is interpolated between nodes. The unknown is
`v = (∂u/∂t) / gamma0`.
-/

namespace Verif.Continuum

open Verif.Mesh Verif.MeshElem

/-- the fields of the continuum problem; derivatives may jump between regions -/
structure Fields where
  /-- magnetization and its derivatives -/
  u : V3 → V3
  D : ℕ → Fin 3 → V3 → V3
  /-- velocity over `gamma0` -/
  v : V3 → V3
  /-- magnetic potential and its gradient -/
  phi : V3 → ℝ
  g : ℕ → V3 → V3
  /-- applied field and field of the spin accumulation -/
  F : V3 → V3
  S : V3 → V3

/-- `∫ ∇u : ∇w` -/
noncomputable def gradDens (D E : Fin 3 → V3 → V3) (x : V3) : ℝ := ∑ d, (D d x).dot (E d x)

/-- all fields but exchange: demagnetizing, applied, anisotropy, spin accumulation -/
noncomputable def localField (m : Tetra.Prm) (mu0 : ℝ) (q : Fields) (r : ℕ) (x : V3) : V3 :=
  -q.g r x + q.F x + SemiDiscrete.anisoField m mu0 (q.u x) + q.S x

/-- damping plus gyration minus the work of all fields in a displacement `w` of derivatives `E`; the equation of motion is that this
vanishes for every `w` orthogonal to `u` -/
noncomputable def weakLlg (prm : ℕ → Tetra.Prm) (sprm : ℕ → Llg.SurfPrm) (mu0 : ℝ) (p : ℕ → V3) (tets : List Tet)
    (tris : List (Tri × ℝ)) (q : Fields) (w : V3 → V3) (E : ℕ → Fin 3 → V3 → V3) : ℝ :=
  (tets.map fun t =>
    (prm t.reg).alpha * tetIntegral (nod4 p t) (fun x => (q.v x).dot (w x))
    + tetIntegral (nod4 p t) (fun x => ((q.u x).cross (q.v x)).dot (w x))
    - (-(2 * (prm t.reg).A / (mu0 * (prm t.reg).Ms)) * tetIntegral (nod4 p t) (gradDens (q.D t.reg) (E t.reg))
      + tetIntegral (nod4 p t) (fun x => (localField (prm t.reg) mu0 q t.reg x).dot (w x)))).sum
  - (tris.map fun f => 2 * (sprm f.1.reg).Ks / f.2 *
      triIntegral (nod3 p f.1) (fun x => (sprm f.1.reg).uk.dot (q.u x) * (sprm f.1.reg).uk.dot (w x))).sum

end Verif.Continuum
