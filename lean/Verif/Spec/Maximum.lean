import Verif.Spec.Electro
import Verif.Spec.SpinAcc

/-!
# Specification: how far potential and spin accumulation may go
-/

namespace Verif.Electro

open Verif.Mesh Verif.MeshElem

/-- no dihedral angle of the tetrahedron exceeds 90 degrees: the faces which meet in the edge between the vertices `k` and `l` -/
def NonObtuse4 (p : Fin 4 → V3) : Prop :=
  ∀ i j k l : Fin 4, i ≠ j → i ≠ k → i ≠ l → j ≠ k → j ≠ l → k ≠ l →
    0 ≤ ((p l - p k).cross (p i - p k)).dot ((p l - p k).cross (p j - p k))

/-- every height of the tetrahedron is at least `η`: height times twice the area of the base is six times the volume -/
def HeightsAtLeast (η : ℝ) (p : Fin 4 → V3) : Prop :=
  ∀ i j k l : Fin 4, i ≠ j → i ≠ k → i ≠ l → j ≠ k → j ≠ l → k ≠ l →
    η * ((p k - p j).cross (p l - p j)).norm ≤ Tetra.detJ p

/-- the scalar part of the weak form of the spin diffusion: diffusion and relaxation -/
noncomputable def diffusionForm (d : SpinData) (w g : ℕ → ℝ) : ℝ :=
  (d.tets.map fun t => diffusivity d.c (d.vol t.reg) * (Tetra.detJ (nod4 d.p t) / 6) *
    ((Tetra.gradV (nod4 d.p t) (nod4 w t)).dot (Tetra.gradV (nod4 d.p t) (nod4 g t)) +
      (∑ i : Fin 4, w (t.ind i) * g (t.ind i)) / 4 / ((d.vol t.reg).lsf * (d.vol t.reg).lsf))).sum

/-- the density `g` would need sources, not sinks, to be maintained outside the nodes `S` -/
def Maintained (d : SpinData) (S : ℕ → Prop) (g : ℕ → ℝ) : Prop :=
  ∀ w : ℕ → ℝ, (∀ i, 0 ≤ w i) → (∀ i, S i → w i = 0) → 0 ≤ diffusionForm d w g

end Verif.Electro
