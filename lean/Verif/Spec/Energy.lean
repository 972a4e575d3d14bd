import Verif.Model.Tetra
import Verif.Model.LlgElem

/-!
# Specification: the energy of the magnetization in given fields
-/

namespace Verif.Energy

open Verif.Mesh Verif.Tetra Verif.Llg

/-- exchange, uniaxial anisotropy and energy in the field `H` given at the Gauss points, on one tetrahedron -/
noncomputable def tetEnergy (G : Rule) (m : Prm) (mu0 : ℝ) (p u : Fin 4 → V3) (H : Fin G.n → V3) : ℝ :=
  exchangeEnergy G m p u + uniaxialEnergy G m p u + zeemanEnergySpace G mu0 m.Ms 1 p u H

/-- energy of the magnetization `u` (given at the nodes) on a list of tetrahedrons, in the applied field and in the
demagnetizing field of the potential `cur.phi` -/
noncomputable def energy (G : Rule) (prm : ℕ → Prm) (mu0 : ℝ) (tets : List Tet) (nodes : ℕ → Node)
    (Hext : Tet → Fin G.n → V3) (u : ℕ → V3) : ℝ :=
  (tets.map fun t => tetEnergy G (prm t.reg) mu0 (nodalOf nodes t).p (fun i => u (t.ind i))
    (fun j => interpField (nodalOf nodes t).p (nodalOf nodes t).phi + Hext t j)).sum

/-- the same with the terms of each tetrahedron divided by `mu0 Ms` -/
noncomputable def reduced (G : Rule) (prm : ℕ → Prm) (mu0 : ℝ) (tets : List Tet) (nodes : ℕ → Node)
    (Hext : Tet → Fin G.n → V3) (u : ℕ → V3) : ℝ :=
  (tets.map fun t => tetEnergy G (prm t.reg) mu0 (nodalOf nodes t).p (fun i => u (t.ind i))
    (fun j => interpField (nodalOf nodes t).p (nodalOf nodes t).phi + Hext t j) / (mu0 * (prm t.reg).Ms)).sum

/-- the magnetization after a step of length `τ` with the solution `x` of the linear system (`mesh::updateNode`,
mesh.h:185-186) -/
noncomputable def moved (gamma0 : ℝ) (nodes : ℕ → Node) (x : ℕ → ℝ) (τ : ℝ) (i : ℕ) : V3 :=
  (Node.makeEvol (x (2 * i) * gamma0) (x (2 * i + 1) * gamma0) τ (nodes i)).next.u

end Verif.Energy
