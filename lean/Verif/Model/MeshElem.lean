import Verif.Model.MeshCheck
import Verif.Model.Tetra
import Verif.Model.TriElem

/-!
# Sums over the elements of a mesh (src/mesh.h, src/mesh.cpp, src/energy.cpp, src/fmm_demag.h)

Sums computed by `std::transform_reduce` and `std::for_each` are exact sums of reals, for which the order of
the terms does not matter.
-/

namespace Verif.MeshElem

open Verif.Mesh

/-- values at the nodes of a tetrahedron (`getNode(i)`, element.h:131) -/
def nod4 {α : Type} (f : ℕ → α) (t : Tet) : Fin 4 → α := fun i => f (t.ind i)

/-- values at the nodes of a triangle -/
def nod3 {α : Type} (f : ℕ → α) (t : Tri) : Fin 3 → α := fun i => f (t.ind i)

/-- volume of an element, `calc_vol`, tetra.cpp:426 -/
noncomputable def tetVol (G : Tetra.Rule) (p : ℕ → V3) (t : Tet) : ℝ := Tetra.calcVol G (nod4 p t)

/-- `paramTetra[r].volume` for all regions and `totalMagVol`, mesh.h:83-92 (`volume` starts at 0, tetra.h:109) -/
noncomputable def volumes (G : Tetra.Rule) (p : ℕ → V3) (mag : ℕ → Bool) (nreg : ℕ) (tets : List Tet) : List ℝ × ℝ :=
  tets.foldl (fun s t => (s.1.modify t.reg (· + tetVol G p t), if t.isMagnetic mag then s.2 + tetVol G p t else s.2))
    (List.replicate nreg 0, 0)

/-- `vol`, mesh.h:93-94 -/
noncomputable def totalVol (G : Tetra.Rule) (p : ℕ → V3) (mag : ℕ → Bool) (nreg : ℕ) (tets : List Tet) : ℝ :=
  (volumes G p mag nreg tets).1.sum

/-- `mesh::avg`, mesh.cpp:89-106; `region` is `none` for -1; `f` is the getter for the chosen component -/
noncomputable def avg (G : Tetra.Rule) (p : ℕ → V3) (mag : ℕ → Bool) (nreg : ℕ) (tets : List Tet) (f : ℕ → ℝ)
    (region : Option ℕ) : ℝ :=
  let sum := ((magTet mag tets).map fun t =>
    if region ≠ some t.reg ∧ region ≠ none then 0
    else ∑ j, Tetra.weight G (nod4 p t) j * Tetra.interpS G (nod4 f t) j).sum
  let volume := match region with
    | none => (volumes G p mag nreg tets).2
    | some r => (volumes G p mag nreg tets).1.getD r 0
  sum / volume

/-- the exchange term of `Fem::energy`, energy.cpp:28 -/
noncomputable def exchangeEnergy (G : Tetra.Rule) (p : ℕ → V3) (mag : ℕ → Bool) (prm : ℕ → Tetra.Prm) (tets : List Tet)
    (u : ℕ → V3) : ℝ :=
  ((magTet mag tets).map fun t => Tetra.exchangeEnergy G (prm t.reg) (nod4 p t) (nod4 u t)).sum

open Classical in
/-- the volume part of the anisotropy term of `Fem::energy`, energy.cpp:31-34 -/
noncomputable def volAnisoEnergy (G : Tetra.Rule) (p : ℕ → V3) (mag : ℕ → Bool) (prm : ℕ → Tetra.Prm) (tets : List Tet)
    (u : ℕ → V3) : ℝ :=
  ((magTet mag tets).map fun t =>
    (if (prm t.reg).K ≠ 0 then Tetra.uniaxialEnergy G (prm t.reg) (nod4 p t) (nod4 u t) else 0)
    + (if (prm t.reg).K3 ≠ 0 then Tetra.cubicEnergy G (prm t.reg) (nod4 p t) (nod4 u t) else 0)).sum

/-- `magTri`, mesh.h:127-131, with the jump of each triangle -/
def magTriJ (suppress : ℕ → Bool) (magN : List Bool) (tris : List (Tri × ℝ)) : List (Tri × ℝ) :=
  tris.filter fun f => f.1.isMagnetic magN && !suppress f.1.reg

/-- sum of all the charges stored in `srcDen` by `calc_charges`, fmm_demag.h:155-179: the tetrahedrons of
`magTet`, then the triangles of `magTri` (each with its jump) -/
noncomputable def totalCharge (G : Tetra.Rule) (H : TriElem.Rule) (p : ℕ → V3) (Ms : ℕ → ℝ)
    (mtets : List Tet) (mtris : List (Tri × ℝ)) (u : ℕ → V3) : ℝ :=
  (mtets.map fun t => ∑ j, Tetra.charges G (Ms t.reg) (nod4 p t) (nod4 u t) j).sum
  + (mtris.map fun f => ∑ j, TriElem.charges H f.2 (nod3 p f.1) (nod3 u f.1) j).sum

/-- the array `corr` after `calc_charges`, fmm_demag.h:169-178, triangle.cpp:61-78 (an index out of range is undefined
behaviour; here every index has an entry) -/
noncomputable def corr (H : TriElem.Rule) (p : ℕ → V3) (mtris : List (Tri × ℝ)) (u : ℕ → V3) : ℕ → ℝ :=
  mtris.foldl (fun c f => (List.finRange 3).foldl (fun c i =>
    Function.update c (f.1.ind i) (c (f.1.ind i) + TriElem.correction H f.2 (nod3 p f.1) (nod3 u f.1) i)) c) fun _ => 0

/-- `E[DEMAG]` computed by `Fem::energy`, energy.cpp:18-62: the tetrahedrons of `magTet`, then the triangles of `magTri` -/
noncomputable def demagEnergy (G : Tetra.Rule) (H : TriElem.Rule) (mu0 : ℝ) (p : ℕ → V3) (Ms : ℕ → ℝ) (mtets : List Tet)
    (mtris : List (Tri × ℝ)) (u : ℕ → V3) (phi : ℕ → ℝ) : ℝ :=
  (mtets.map fun t => Tetra.demagEnergy G mu0 (Ms t.reg) (nod4 p t) (nod4 u t) (fun i => phi (t.ind i))).sum
  + (mtris.map fun f => TriElem.demagEnergy H mu0 f.2 (nod3 p f.1) (nod3 u f.1) (fun i => phi (f.1.ind i))).sum

end Verif.MeshElem
