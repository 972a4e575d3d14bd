import Verif.Spec.ContinuumPot
import Verif.Spec.SpinAcc

/-!
# Specification: the spins that a current brings into a magnetization

A current of density `-σ ∇V` in a material of polarization `P` and magnetization `M` carries the spin current
`-(μB P σ / e) ∇V ⊗ M`. Its divergence is a source of spin accumulation, in weak form the integral of
`(μB P σ / e) Σ_a M_a ∇V·∇w_a` over the magnetic material.
-/

namespace Verif.Continuum

open Verif.Mesh Verif.MeshElem Verif.Tetra Verif.Electro

/-- a function affine on the tetrahedron, of values `v` at the vertices -/
def AffineOn (p : Fin 4 → V3) (v : Fin 4 → ℝ) (f : V3 → ℝ) : Prop :=
  ∀ l : Fin 4 → ℝ, (∀ i, 0 ≤ l i) → ∑ i, l i = 1 → f (∑ i, l i * p i) = ∑ i, l i * v i

/-- `M` is the finite element field of nodal values `n` -/
def FieldOf (p : ℕ → V3) (tets : List Tet) (n : ℕ → V3) (M : V3 → V3) : Prop :=
  ∀ t ∈ tets, ∀ a : Fin 3, AffineOn (nod4 p t) (comp4 n a t) fun x => (M x).comp a

/-- `μB P σ / e` of a material -/
noncomputable def polarized (c : Consts) (m : VolPrm) : ℝ := c.mub * m.P.val * m.sigma / c.e

/-- the source of spin accumulation, tested with the nodal field `w`; `∇V` and `∇w` are constant on the elements -/
noncomputable def spinSource (d : SpinData) (M : V3 → V3) (w : ℕ → V3) : ℝ :=
  (d.tets.map fun t => if t.isMagnetic d.mag then
    polarized d.c (d.vol t.reg) * tetIntegral (nod4 d.p t) (fun x =>
      ∑ a : Fin 3, (M x).comp a * (gradV (nod4 d.p t) (nod4 d.V t)).dot (gradV (nod4 d.p t) (comp4 w a t)))
    else 0).sum

/-- mean of four vectors -/
noncomputable def mean4 (v : Fin 4 → V3) : V3 := (1 / 4 : ℝ) * ∑ i, v i

/-- derivative of the nodal field `n` along the vector `g` -/
noncomputable def along (p : ℕ → V3) (t : Tet) (g : V3) (n : ℕ → V3) : V3 :=
  ⟨g.dot (gradV (nod4 p t) (comp4 n 0 t)), g.dot (gradV (nod4 p t) (comp4 n 1 t)), g.dot (gradV (nod4 p t) (comp4 n 2 t))⟩

/-- integral of `(μB P σ / e) w·(∇V·∇)M` for the finite element fields of nodal values `w` and `n`: the spins have to turn with the
magnetization that the current crosses -/
noncomputable def turning (d : SpinData) (n w : ℕ → V3) : ℝ :=
  (d.tets.map fun t => if t.isMagnetic d.mag then
    polarized d.c (d.vol t.reg) * tetVolume (nod4 d.p t) *
      (mean4 (nod4 w t)).dot (along d.p t (gradV (nod4 d.p t) (nod4 d.V t)) n)
    else 0).sum

end Verif.Continuum
