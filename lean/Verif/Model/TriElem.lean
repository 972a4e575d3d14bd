import Mathlib.Analysis.SpecialFunctions.Log.Basic
import Verif.Model.V3Sum
import Verif.Model.Geom

/-!
# Finite element computations on a triangle (src/triangle.h, src/triangle.cpp)

An element is seen through the positions of its three nodes and the values of the fields at these nodes.
-/

namespace Verif.TriElem

/-- the Gauss points in the reference triangle and their weights (`NPI, u, v, pds`, triangle.h:20-52) -/
structure Rule where
  n : ℕ
  u : Fin n → ℝ
  v : Fin n → ℝ
  pds : Fin n → ℝ

/-- triangle.h:20-40, compiled with `ONE_GAUSS_POINT` -/
noncomputable def rule1 : Rule where
  n := 1
  u := ![1 / 3]
  v := ![1 / 3]
  pds := ![1 / 2]

/-- triangle.h:42-52, the default -/
noncomputable def rule4 : Rule where
  n := 4
  u := ![1 / 3, 1 / 5, 3 / 5, 1 / 5]
  v := ![1 / 3, 1 / 5, 1 / 5, 3 / 5]
  pds := ![-27 / 96, 25 / 96, 25 / 96, 25 / 96]

/-- hat functions at the Gauss points, `a[i][j]`, triangle.h:36 and 55-58 -/
def Rule.a (G : Rule) (i : Fin 3) (j : Fin G.n) : ℝ := ![1 - G.u j - G.v j, G.u j, G.v j] i

/-- `normal_vect`, triangle.h:227-233 -/
def normalVect (p : Fin 3 → V3) : V3 := V3.cross (p 1 - p 0) (p 2 - p 0)

/-- `calc_surf`, triangle.h:220 -/
noncomputable def surf (p : Fin 3 → V3) : ℝ := 1 / 2 * (normalVect p).norm

/-- `calc_norm`, triangle.h:201-206 -/
noncomputable def unitNormal (p : Fin 3 → V3) : V3 := (normalVect p).normalize

/-- `weight`, triangle.h:121-122 -/
noncomputable def weight (G : Rule) (p : Fin 3 → V3) (j : Fin G.n) : ℝ := 2 * surf p * G.pds j

/-- scalar interpolation, triangle.h:151-158 -/
def interpS (G : Rule) (f : Fin 3 → ℝ) (j : Fin G.n) : ℝ := ∑ i, f i * G.a i j

/-- vector interpolation, triangle.h:139-146 -/
def interpV (G : Rule) (f : Fin 3 → V3) (j : Fin G.n) : V3 := ∑ i, G.a i j * f i

/-- `getPtGauss`, triangle.h:209-217 -/
def ptGauss (G : Rule) (p : Fin 3 → V3) (j : Fin G.n) : V3 := interpV G p j

open Classical in
/-- `Tri::charges`, triangle.cpp:45-59 -/
noncomputable def charges (G : Rule) (dMs : ℝ) (p u : Fin 3 → V3) (j : Fin G.n) : ℝ :=
  if dMs ≠ 0 then dMs * (weight G p j * (interpV G u j).dot (unitNormal p)) else 0

/-- `anisotropyEnergy`, triangle.cpp:38-43 -/
noncomputable def anisotropyEnergy (G : Rule) (Ks : ℝ) (uk : V3) (p u : Fin 3 → V3) : ℝ :=
  -Ks * ∑ j, weight G p j * ((interpV G u j).dot uk * (interpV G u j).dot uk)

/-- `demagEnergy`, triangle.cpp:80-85 -/
noncomputable def demagEnergy (G : Rule) (mu0 dMs : ℝ) (p u : Fin 3 → V3) (phi : Fin 3 → ℝ) : ℝ :=
  (1 / 2) * mu0 * dMs * ∑ j, ((interpV G u j).dot (unitNormal p) * interpS G phi j) * weight G p j

/-- the vector `BE` of `Tri::integrales`, triangle.cpp:8-25, column `i`. In `double` a division by
`dMs = 0` gives an infinity or NaN; here it gives 0, so statements on this function assume `dMs ≠ 0` -/
noncomputable def BE (G : Rule) (Ks dMs : ℝ) (uk : V3) (p u : Fin 3 → V3) (i : Fin 3) : V3 :=
  ∑ j, (weight G p j * (2 * Ks / dMs) * uk.dot (interpV G u j) * G.a i j) * uk

/-- `Tri::potential`, triangle.cpp:87-125: potential at node 1 of the triangle `(p1, p2, p3)` (the nodes
`i`, `i+1`, `i+2` modulo 3) with normal `n` and surface `surf`; `s1, s2, s3` are the scalar products of the
field with `n`. The test of the sign of the surface (which exits the program) never succeeds since
`surf` is half a norm -/
noncomputable def potential (p1 p2 p3 : V3) (surf dMs s1 s2 s3 : ℝ) : ℝ :=
  let f := fun x : ℝ => Real.sqrt (1 + x * x)
  let b := (p2 - p1).norm
  let t := (p2 - p1).dot (p3 - p1) / b
  let S2 := 2 * surf
  let h := S2 / b
  let c := (t - b) / h
  let r := h * f (t / h)
  let log1 := Real.log ((c * t + h + f c * r) / (b * (c + f c)))
  let xi := b * log1 / f c
  let pot := xi * s1 + ((xi * (h + c * t) - b * (r - b)) * s2 + b * (r - b - c * xi) * s3) * b / (S2 * (1 + c * c))
  1 / 2 * dMs * pot

/-- `Tri::potential(getter, i)`, triangle.cpp:87-125; `u` is the field read by `getter` -/
noncomputable def potentialAt (dMs : ℝ) (p u : Fin 3 → V3) (i : Fin 3) : ℝ :=
  potential (p i) (p (i + 1)) (p (i + 2)) (surf p) dMs ((u i).dot (unitNormal p)) ((u (i + 1)).dot (unitNormal p))
    ((u (i + 2)).dot (unitNormal p))

/-- what `Tri::correctionCharges` adds to `corr` for node `i` of the triangle, triangle.cpp:61-78 -/
noncomputable def correction (G : Rule) (dMs : ℝ) (p u : Fin 3 → V3) (i : Fin 3) : ℝ :=
  -(∑ j, charges G dMs p u j / (p i - ptGauss G p j).norm) + potentialAt dMs p u i

end Verif.TriElem
