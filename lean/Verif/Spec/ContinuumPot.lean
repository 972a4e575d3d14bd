import Verif.Spec.Continuum
import Verif.Spec.Electro

/-!
# The electric potential of the continuum

The potential is a smooth function on every element (its gradient may jump between regions); integrals are Lebesgue integrals over
the solid body and its surfaces.
-/

namespace Verif.Continuum

open MeasureTheory Verif.Mesh Verif.MeshElem

/-- integral over a triangle of the affine function of nodal values `w` -/
noncomputable def triAffine (p : Fin 3 → V3) (w : Fin 3 → ℝ) : ℝ :=
  2 * triArea p * ∫ q in {q : Fin 2 → ℝ | (∀ i, 0 ≤ q i) ∧ ∑ i, q i ≤ 1}, (w 0 + q 0 * (w 1 - w 0) + q 1 * (w 2 - w 0))

/-- `∫ σ ∇V·∇w + ∫ J w` for a potential `V` of gradient `g` and a continuous function `w`, affine on every element -/
noncomputable def weakOhm (p : ℕ → V3) (sigma J : ℕ → ℝ) (tets : List Tet) (tris : List Tri) (g : ℕ → V3 → V3) (w : ℕ → ℝ) : ℝ :=
  (tets.map fun t => sigma t.reg * tetIntegral (nod4 p t) (fun x => (g t.reg x).dot (Tetra.gradV (nod4 p t) (nod4 w t)))).sum
  + (tris.map fun f => J f.reg * triAffine (nod3 p f) (nod3 w f)).sum

/-- the potential of gradient `g` solves the problem of the continuum: conservation of the current tested with every continuous
piecewise affine function that vanishes on `S` -/
def Ohm (p : ℕ → V3) (sigma J : ℕ → ℝ) (tets : List Tet) (tris : List Tri) (S : ℕ → Prop) (g : ℕ → V3 → V3) : Prop :=
  ∀ w : ℕ → ℝ, (∀ i, S i → w i = 0) → weakOhm p sigma J tets tris g w = 0

/-- mean square distance, weighted by the conductivity, between the gradient `g` and that of the nodal values `V` -/
noncomputable def gradError (p : ℕ → V3) (sigma : ℕ → ℝ) (tets : List Tet) (g : ℕ → V3 → V3) (V : ℕ → ℝ) : ℝ :=
  (tets.map fun t => sigma t.reg *
    tetIntegral (nod4 p t) (fun x => (g t.reg x - Tetra.gradV (nod4 p t) (nod4 V t)).norm ^ 2)).sum

/-- power dissipated by the current of a potential of gradient `g` -/
noncomputable def power (p : ℕ → V3) (sigma : ℕ → ℝ) (tets : List Tet) (g : ℕ → V3 → V3) : ℝ :=
  (tets.map fun t => sigma t.reg * tetIntegral (nod4 p t) (fun x => (g t.reg x).norm ^ 2)).sum

/-- power dissipated by the current of the nodal values `V` -/
noncomputable def meshPower (p : ℕ → V3) (sigma : ℕ → ℝ) (tets : List Tet) (V : ℕ → ℝ) : ℝ :=
  (tets.map fun t => sigma t.reg * tetVolume (nod4 p t) * (Tetra.gradV (nod4 p t) (nod4 V t)).norm ^ 2).sum

/-- power given to the currents injected through the surfaces -/
noncomputable def injected (p : ℕ → V3) (J : ℕ → ℝ) (tris : List Tri) (V : ℕ → ℝ) : ℝ :=
  (tris.map fun f => J f.reg * triArea (nod3 p f) * ((V (f.ind 0) + V (f.ind 1) + V (f.ind 2)) / 3)).sum

end Verif.Continuum
