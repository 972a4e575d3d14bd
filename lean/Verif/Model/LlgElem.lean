import Mathlib.Analysis.SpecialFunctions.Log.Basic
import Verif.Model.Node
import Verif.Model.MeshElem
import Verif.Model.Assembly
import Verif.Model.TriElem

/-!
# The element matrices of a time step, as handed to the assembly
(src/tetra.cpp, src/triangle.cpp, src/linear_algebra.cpp, src/time_integration.h)
-/

namespace Verif.Llg

open Verif.Mesh Verif.Assembly Verif.Tetra

/-- `timing::set_dt`, time_integration.h:37-42 with `TAUR = 100 DTMAX` (line 12). The unqualified `abs` is
taken to be the floating point one. -/
noncomputable def prefactor (dtmax dt : ℝ) : ℝ :=
  let tt := dt / (100 * dtmax)
  1 + tt * |Real.log tt|

/-- what `Tet::integrales` reads from the four nodes of an element, tetra.cpp:220-231, element.h:81-96 -/
def nodalOf (nodes : ℕ → Node) (t : Tet) : Nodal where
  p := fun i => (nodes (t.ind i)).p
  u := fun i => (nodes (t.ind i)).cur.u
  v := fun i => (nodes (t.ind i)).cur.v
  phi := fun i => (nodes (t.ind i)).cur.phi
  phiv := fun i => (nodes (t.ind i)).cur.phiv
  ep := fun i => (nodes (t.ind i)).ep
  eq := fun i => (nodes (t.ind i)).eq

/-- the element with the matrix `Kp` and the vector `Lp` computed by `Tet::integrales`, tetra.cpp:210-307, as
called in linear_algebra.cpp:38-43 and 58-73. Row `di N + ie` of the code is `(di, ie)`. -/
noncomputable def tetElem (G : Rule) (prm : ℕ → Prm) (s : Step) (nodes : ℕ → Node) (Hext Hst : Tet → Fin G.n → V3)
    (dir : Option (Fin 3)) (Vdrift : ℝ) (t : Tet) : Elem 4 ℝ where
  ind := t.ind
  Ke := fun r c => Kp G (prm t.reg) s (nodalOf nodes t) (Hext t) (Hst t)
    (Fin.ofNat 2 (r / 4), Fin.ofNat 4 (r % 4)) (Fin.ofNat 2 (c / 4), Fin.ofNat 4 (c % 4))
  Le := fun r => Lp G (prm t.reg) s (nodalOf nodes t) (Hext t) (Hst t) dir Vdrift
    (Fin.ofNat 2 (r / 4), Fin.ofNat 4 (r % 4))

/-- parameters of a surface region read by `Tri::integrales` and `Tri::anisotropyEnergy`, triangle.h:73-74 -/
structure SurfPrm where
  Ks : ℝ
  uk : V3

/-- `buildMatP` for a triangle, element.h:81-96 -/
def matP3 (ep eq : Fin 3 → V3) : Matrix (Fin 2 × Fin 3) (Fin 3 × Fin 3) ℝ := fun r c =>
  if r.2 = c.2 then (if r.1 = 0 then (ep r.2).comp c.1 else (eq r.2).comp c.1) else 0

/-- the vector `Lp` of a triangle, triangle.cpp:6-36: `Perm` exchanges the two block rows of `P BE` -/
noncomputable def LpTri (H : TriElem.Rule) (sp : SurfPrm) (dMs : ℝ) (p u ep eq : Fin 3 → V3) (r : Fin 2 × Fin 3) : ℝ :=
  ∑ c : Fin 3 × Fin 3, matP3 ep eq (1 - r.1, r.2) c * (TriElem.BE H sp.Ks dMs sp.uk p u c.2).comp c.1

open Classical in
/-- a triangle as handed to the assembly of the right hand side: `Tri::integrales` is called for the triangles with
surface anisotropy only (linear_algebra.cpp:45-51 and 75-80); otherwise `Lp` keeps the zeros of the constructor
(element.h:48-49). The jump `dMs` comes with the triangle. -/
noncomputable def triElem (H : TriElem.Rule) (sprm : ℕ → SurfPrm) (nodes : ℕ → Node) (f : Tri × ℝ) : Elem 3 ℝ where
  ind := f.1.ind
  Ke := fun _ _ => 0
  Le := fun r => if (sprm f.1.reg).Ks ≠ 0 then
    LpTri H (sprm f.1.reg) f.2 (fun i => (nodes (f.1.ind i)).p) (fun i => (nodes (f.1.ind i)).cur.u)
      (fun i => (nodes (f.1.ind i)).ep) (fun i => (nodes (f.1.ind i)).eq)
      (Fin.ofNat 2 (r / 3), Fin.ofNat 3 (r % 3)) else 0

end Verif.Llg
