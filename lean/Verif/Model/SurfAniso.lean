import Verif.Model.LlgElem

/-!
# Surface anisotropy in the energy (src/energy.cpp)
-/

namespace Verif.Llg

open Verif.Mesh Verif.MeshElem

open Classical in
/-- the surface part of `E[ANISOTROPY]`, energy.cpp:49-60: a sum over the triangles of `magTri` -/
noncomputable def surfAniso (H : TriElem.Rule) (sprm : ℕ → SurfPrm) (p u : ℕ → V3) (mtris : List (Tri × ℝ)) : ℝ :=
  (mtris.map fun f => if (sprm f.1.reg).Ks ≠ 0 then
    TriElem.anisotropyEnergy H (sprm f.1.reg).Ks (sprm f.1.reg).uk (nod3 p f.1) (nod3 u f.1) else 0).sum

end Verif.Llg
