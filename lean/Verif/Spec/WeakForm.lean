import Verif.Model.Tetra
import Verif.Model.TriElem
import Verif.Model.LlgElem

/-!
# Specification of a time step: the weak form of the equation of motion in the tangent plane

Fields are given by their values at the nodes. The unknown is `v = (∂u/∂t) / gamma0`.
-/

namespace Verif.WeakForm

open Verif.Mesh Verif.Tetra Verif.Llg

/-- scalar product of the (constant) gradients of two fields affine on an element -/
noncomputable def gradDot (p f g : Fin 4 → V3) : ℝ :=
  (Tetra.deriv p 0 f).dot (Tetra.deriv p 0 g) + (Tetra.deriv p 1 f).dot (Tetra.deriv p 1 g)
    + (Tetra.deriv p 2 f).dot (Tetra.deriv p 2 g)

/-- `∫ alpha v·w`, the product being interpolated between the nodes (lumped) -/
noncomputable def damping (G : Rule) (p : Fin 4 → V3) (alpha : Fin G.n → ℝ) (v w : Fin 4 → V3) : ℝ :=
  ∑ j, weight G p j * alpha j * interpS G (fun i => (v i).dot (w i)) j

/-- `∫ (u × v)·w`, lumped in the same way -/
noncomputable def gyration (G : Rule) (p u v w : Fin 4 → V3) : ℝ :=
  ∑ j, weight G p j * interpS G (fun i => ((u i).cross (v i)).dot (w i)) j

/-- `∫ H·w` for a field `H` given at the Gauss points -/
noncomputable def work (G : Rule) (p : Fin 4 → V3) (H : Fin G.n → V3) (w : Fin 4 → V3) : ℝ :=
  ∑ j, weight G p j * (H j).dot (interpV G w j)

/-- the field taken explicitly: demagnetizing field with its extrapolation over `theta dt`, applied field, anisotropy, and
the field `Hst` of the spin accumulation with its part along `u` turned by the velocity -/
noncomputable def explicitField (G : Rule) (m : Prm) (s : Step) (n : Nodal) (Hext Hst : Fin G.n → V3) (j : Fin G.n) : V3 :=
  interpField n.p n.phi + (s.theta * s.dt) * interpField n.p n.phiv + Hext j
    + hAniso m s (interpV G n.u j) (interpV G n.v j)
    + (Hst j - (s.theta * s.dt * s.gamma0 * (Hst j).dot (interpV G n.u j)) * interpV G n.v j)

/-- effective damping at a Gauss point (C38), for the component along `u` of the field -/
noncomputable def effDamping (G : Rule) (m : Prm) (s : Step) (n : Nodal) (Hext Hst : Fin G.n → V3) (j : Fin G.n) : ℝ :=
  alphaEff s.gamma0 s.dt m.alpha (uHeff G m s n (fun j => interpField n.p n.phi + Hext j + Hst j) j)

/-- the change to a frame moving at speed `V` along direction `d`, to first order in `theta dt gamma0` -/
noncomputable def drift (G : Rule) (m : Prm) (s : Step) (n : Nodal) (dir : Option (Fin 3)) (V : ℝ) (w : Fin 4 → V3) : ℝ :=
  match dir with
  | none => 0
  | some d => V * ∑ j, weight G n.p j *
      (m.alpha * (Tetra.deriv n.p d n.u + sdt s * Tetra.deriv n.p d n.v)
        + (interpV G n.u j).cross (Tetra.deriv n.p d n.u)
        + sdt s * ((interpV G n.u j).cross (Tetra.deriv n.p d n.v) + (interpV G n.v j).cross (Tetra.deriv n.p d n.u))).dot
        (interpV G w j)

/-- left hand side minus right hand side of the equation of motion on one tetrahedron, tested with `w`: damping and
gyration on the left; on the right the exchange field at `u + (prefactor theta dt gamma0) v`, the explicit field and the
drift -/
noncomputable def residual (G : Rule) (m : Prm) (s : Step) (n : Nodal) (Hext Hst : Fin G.n → V3) (dir : Option (Fin 3))
    (V : ℝ) (v w : Fin 4 → V3) : ℝ :=
  damping G n.p (effDamping G m s n Hext Hst) v w + gyration G n.p n.u v w
  - (-(2 * m.A / (s.mu0 * m.Ms)) * calcVol G n.p *
        gradDot n.p (fun i => n.u i + (s.prefactor * (s.theta * s.dt * s.gamma0)) * v i) w
      + work G n.p (explicitField G m s n Hext Hst) w + drift G m s n dir V w)

/-- force of the surface anisotropy of a triangle, tested with `w` -/
noncomputable def surfaceWork (H : TriElem.Rule) (sp : SurfPrm) (dMs : ℝ) (p u w : Fin 3 → V3) : ℝ :=
  2 * sp.Ks / dMs * ∑ j, TriElem.weight H p j * sp.uk.dot (TriElem.interpV H u j) * sp.uk.dot (TriElem.interpV H w j)

/-- the field `v` satisfies the equation of motion in the tangent plane: for every field `w` orthogonal to `u` at the
magnetic nodes -/
def Holds (G : Rule) (H : TriElem.Rule) (prm : ℕ → Prm) (sprm : ℕ → SurfPrm) (s : Step) (magN : ℕ → Prop)
    (tets : List Tet) (tris : List (Tri × ℝ)) (nodes : ℕ → Node) (Hext Hst : Tet → Fin G.n → V3) (dir : Option (Fin 3))
    (V : ℝ) (v : ℕ → V3) : Prop :=
  ∀ w : ℕ → V3, (∀ i, magN i → (w i).dot (nodes i).cur.u = 0) →
    (tets.map fun t => residual G (prm t.reg) s (nodalOf nodes t) (Hext t) (Hst t) dir V (fun i => v (t.ind i))
        (fun i => w (t.ind i))).sum
      = (tris.map fun f => surfaceWork H (sprm f.1.reg) f.2 (fun i => (nodes (f.1.ind i)).p)
          (fun i => (nodes (f.1.ind i)).cur.u) (fun i => w (f.1.ind i))).sum

end Verif.WeakForm
