import Verif.Model.ExtField
import Verif.Model.Tetra
import Verif.Model.MeshElem

/-!
# The two notations of the applied field (src/settings.h:286-317, src/linear_algebra.cpp:26-72, src/energy.cpp:9-46)

The applied field is given either as a vector function of time, or as the product of a scalar function of time and a vector function
of position. The values of the expressions are functions here (the expressions are in `Model/JsMath` and `Model/Parser`). With neither
(`UNDEF`) the elements are not prepared at all, time_integration.cpp:194-203; this case is left out here.
-/

namespace Verif.FieldKind

open Verif.Mesh Verif.MeshElem

/-- `field_type` with the expressions, settings.cpp:500-536 -/
inductive Field
  /-- `RtoR3`: vector function of time, settings.cpp:506, 516 -/
  | RtoR3 (f : ℝ → V3)
  /-- `R4toR3`: vector function of position and scalar function of time, settings.cpp:534 -/
  | R4toR3 (space : V3 → V3) (time : ℝ → ℝ)

/-- division of a vector by a number -/
noncomputable def vdiv (v : V3) (a : ℝ) : V3 := ⟨v.x / a, v.y / a, v.z / a⟩

/-- `getField` where it is meaningful, settings.h:290-297 -/
noncomputable def getField (mu0 : ℝ) (f : ℝ → V3) (t : ℝ) : V3 := vdiv (f t) mu0

/-- `getFieldTime`, settings.h:316-317 -/
noncomputable def getFieldTime (mu0 : ℝ) (time : ℝ → ℝ) (t : ℝ) : ℝ := time t / mu0

/-- the integration points of a tetrahedron, `getPtGauss`, tetra.h -/
def gauss (G : Tetra.Rule) (p : ℕ → V3) (te : Tet) : List V3 := List.ofFn (Tetra.ptGauss G (nod4 p te))

/-- the table `extSpaceField`, mesh.cpp:377-389 -/
def table (G : Tetra.Rule) (p : ℕ → V3) (mag : ℕ → Bool) (tets : List Tet) (space : V3 → V3) : List (List V3) :=
  ExtField.setExtSpaceField (fun te => mag te.reg) (gauss G p) space tets

/-- what `calc_Hext` gives for the tetrahedron number `idx`: time_integration.cpp:194-203 with linear_algebra.cpp:30-36 or 63-69;
`none` for an access out of bounds -/
noncomputable def elemField (G : Tetra.Rule) (p : ℕ → V3) (mag : ℕ → Bool) (tets : List Tet) (mu0 : ℝ) (F : Field) (t : ℝ) (idx : ℕ) :
    Option (Fin G.n → V3) :=
  match F with
  | .RtoR3 f => some fun _ => getField mu0 f t
  | .R4toR3 space time => (ExtField.readField (table G p mag tets space) idx).map fun l j => getFieldTime mu0 time t * l.getD j 0

/-- the contribution of tetrahedron number `idx` to the Zeeman energy, energy.cpp:9-15, 37-43 with tetra.cpp:374-391; `none` for an
access out of bounds -/
noncomputable def elemZeeman (G : Tetra.Rule) (p : ℕ → V3) (mag : ℕ → Bool) (tets : List Tet) (mu0 Ms : ℝ) (u : ℕ → V3) (F : Field) (t : ℝ)
    (idx : ℕ) (te : Tet) : Option ℝ :=
  match F with
  | .RtoR3 f => some (Tetra.zeemanEnergy G mu0 Ms (nod4 p te) (nod4 u te) (getField mu0 f t))
  | .R4toR3 space time => (ExtField.readField (table G p mag tets space) idx).map fun l =>
      Tetra.zeemanEnergySpace G mu0 Ms (getFieldTime mu0 time t) (nod4 p te) (nod4 u te) fun j => l.getD j 0

/-- `E[ZEEMAN]`: the loop over `magTet`, energy.cpp:17-47; `Ms` by region -/
noncomputable def zeeman (G : Tetra.Rule) (p : ℕ → V3) (mag : ℕ → Bool) (tets : List Tet) (mu0 : ℝ) (Ms : ℕ → ℝ) (u : ℕ → V3) (F : Field)
    (t : ℝ) : Option ℝ :=
  (ExtField.magTet (fun te => mag te.reg) tets).foldlM (fun e idx => do
    let te ← tets[idx]?
    let z ← elemZeeman G p mag tets mu0 (Ms te.reg) u F t idx te
    pure (e + z)) 0

end Verif.FieldKind
