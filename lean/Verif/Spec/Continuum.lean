import Mathlib.MeasureTheory.Integral.Bochner.Set
import Mathlib.MeasureTheory.Constructions.Pi
import Mathlib.MeasureTheory.Measure.Lebesgue.Basic
import Verif.Model.V3Sum

/-!
# Continuous magnetizations

What a mesh is an approximation of: a tetrahedron is a set of points of space, energies are Lebesgue integrals
over it, and the magnetization is a smooth field of which the nodes only hold samples.
-/

namespace Verif.Continuum

open MeasureTheory

/-- the space Lebesgue integrates on -/
abbrev Pt := Fin 3 → ℝ

/-- a point of space from its coordinates -/
def ofPt (x : Pt) : V3 := ⟨x 0, x 1, x 2⟩

/-- `x` is a mean of the four vertices -/
def InTet (p : Fin 4 → V3) (x : V3) : Prop :=
  ∃ l : Fin 4 → ℝ, (∀ i, 0 ≤ l i) ∧ ∑ i, l i = 1 ∧ x = ∑ i, l i * p i

/-- the solid tetrahedron of vertices `p` -/
def tetSet (p : Fin 4 → V3) : Set Pt := {x | InTet p (ofPt x)}

/-- Lebesgue integral of `f` over the tetrahedron -/
noncomputable def tetIntegral (p : Fin 4 → V3) (f : V3 → ℝ) : ℝ := ∫ x in tetSet p, f (ofPt x)

/-- its Lebesgue volume -/
noncomputable def tetVolume (p : Fin 4 → V3) : ℝ := volume.real (tetSet p)

/-- a well shaped tetrahedron of size `h`: no edge is longer than `h`, and the volume is at least `h³ / κ` -/
structure Regular (h κ : ℝ) (p : Fin 4 → V3) : Prop where
  edge : ∀ i j, (p i - p j).norm ≤ h
  vol : h ^ 3 ≤ κ * tetVolume p

/-- `u` is a smooth field of unit vectors on the body `B`: `D d` is its derivative along axis `d`, slopes are at most `M`,
and the derivatives vary at most at rate `L` -/
structure Smooth (B : V3 → Prop) (u : V3 → V3) (D : Fin 3 → V3 → V3) (M L : ℝ) : Prop where
  unit : ∀ x, B x → (u x).norm = 1
  slope : ∀ x y, B x → B y → (u y - u x).norm ≤ M * (y - x).norm
  bound : ∀ d x, B x → (D d x).norm ≤ M
  taylor : ∀ x y, B x → B y →
    (u y - (u x + (y - x).x * D 0 x + (y - x).y * D 1 x + (y - x).z * D 2 x)).norm ≤ L / 2 * (y - x).norm ^ 2
  lip : ∀ d x y, B x → B y → (D d y - D d x).norm ≤ L * (y - x).norm

/-- `phi` is a smooth potential on `B`: `g` is its gradient, at most `P` long, and varies at most at rate `L` -/
structure SmoothPot (B : V3 → Prop) (phi : V3 → ℝ) (g : V3 → V3) (P L : ℝ) : Prop where
  bound : ∀ x, B x → (g x).norm ≤ P
  taylor : ∀ x y, B x → B y → |phi y - (phi x + (g x).dot (y - x))| ≤ L / 2 * (y - x).norm ^ 2
  lip : ∀ x y, B x → B y → (g y - g x).norm ≤ L * (y - x).norm

/-- a field at most `P` long which varies at most at rate `L` -/
structure Gentle (B : V3 → Prop) (H : V3 → V3) (P L : ℝ) : Prop where
  bound : ∀ x, B x → (H x).norm ≤ P
  lip : ∀ x y, B x → B y → (H y - H x).norm ≤ L * (y - x).norm

/-- point of the triangle of vertices `p` -/
def triPoint (p : Fin 3 → V3) (q : Fin 2 → ℝ) : V3 := p 0 + q 0 * (p 1 - p 0) + q 1 * (p 2 - p 0)

/-- `x` is a point of the triangle -/
def InTri (p : Fin 3 → V3) (x : V3) : Prop := ∃ q : Fin 2 → ℝ, (∀ i, 0 ≤ q i) ∧ ∑ i, q i ≤ 1 ∧ x = triPoint p q

/-- area of the triangle -/
noncomputable def triArea (p : Fin 3 → V3) : ℝ := ((p 1 - p 0).cross (p 2 - p 0)).norm / 2

/-- surface integral over the triangle, whose points are described by two parameters -/
noncomputable def triIntegral (p : Fin 3 → V3) (f : V3 → ℝ) : ℝ :=
  2 * triArea p * ∫ q in {q : Fin 2 → ℝ | (∀ i, 0 ≤ q i) ∧ ∑ i, q i ≤ 1}, f (triPoint p q)

/-- a smooth field of vectors: at most `P` long, derivatives `E d` at most `N` long, which vary at most at rate `L` -/
structure SmoothVec (B : V3 → Prop) (w : V3 → V3) (E : Fin 3 → V3 → V3) (P N L : ℝ) : Prop where
  size : ∀ x, B x → (w x).norm ≤ P
  slope : ∀ x y, B x → B y → (w y - w x).norm ≤ N * (y - x).norm
  bound : ∀ d x, B x → (E d x).norm ≤ N
  taylor : ∀ x y, B x → B y →
    (w y - (w x + (y - x).x * E 0 x + (y - x).y * E 1 x + (y - x).z * E 2 x)).norm ≤ L / 2 * (y - x).norm ^ 2
  lip : ∀ d x y, B x → B y → (E d y - E d x).norm ≤ L * (y - x).norm

/-- density of exchange energy, for a stiffness equal to one: the squared gradient -/
noncomputable def gradSq (D : Fin 3 → V3 → V3) (x : V3) : ℝ := ∑ d, (D d x).norm ^ 2

/-- density of uniaxial anisotropy energy -/
noncomputable def uniaxialDensity (K : ℝ) (k m : V3) : ℝ := -K * (k.dot m) ^ 2

/-- density of cubic anisotropy energy -/
noncomputable def cubicDensity (K3 : ℝ) (e1 e2 e3 m : V3) : ℝ :=
  K3 * ((m.dot e1) ^ 2 * (m.dot e2) ^ 2 + (m.dot e2) ^ 2 * (m.dot e3) ^ 2 + (m.dot e3) ^ 2 * (m.dot e1) ^ 2)

end Verif.Continuum
