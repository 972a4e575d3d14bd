import Mathlib.LinearAlgebra.Matrix.NonsingularInverse
import Mathlib.LinearAlgebra.Matrix.Notation
import Verif.Model.V3Sum
import Verif.Model.Geom

/-!
# Finite element computations on a tetrahedron (src/tetra.h, src/tetra.cpp)

An element is seen through the positions of its four nodes and the values of the fields at these nodes.
Eigen matrices of size `DIM x NPI` are functions from Gauss point to vector.
-/

namespace Verif.Tetra

/-- the Gauss points in the reference tetrahedron and their weights (`NPI, u, v, w, pds`, tetra.h:27-60) -/
structure Rule where
  n : ℕ
  u : Fin n → ℝ
  v : Fin n → ℝ
  w : Fin n → ℝ
  pds : Fin n → ℝ

/-- tetra.h:28-36, compiled with `ONE_GAUSS_POINT` -/
noncomputable def rule1 : Rule where
  n := 1
  u := ![1 / 4]
  v := ![1 / 4]
  w := ![1 / 4]
  pds := ![1 / 6]

/-- tetra.h:50-60, the default -/
noncomputable def rule5 : Rule where
  n := 5
  u := ![1 / 4, 1 / 6, 1 / 6, 1 / 6, 1 / 2]
  v := ![1 / 4, 1 / 6, 1 / 6, 1 / 2, 1 / 6]
  w := ![1 / 4, 1 / 6, 1 / 2, 1 / 6, 1 / 6]
  pds := ![-2 / 15, 3 / 40, 3 / 40, 3 / 40, 3 / 40]

/-- hat functions at the Gauss points, `a[i][j]`, tetra.h:39-42 and 70-75 -/
def Rule.a (G : Rule) (i : Fin 4) (j : Fin G.n) : ℝ :=
  ![1 - G.u j - G.v j - G.w j, G.u j, G.v j, G.w j] i

/-- `Tet::Jacobian`, tetra.cpp:393-408: the matrix `J` (`p i` is `getNode(i).p`) -/
def jac (p : Fin 4 → V3) : Matrix (Fin 3) (Fin 3) ℝ :=
  !![(p 1 - p 0).x, (p 2 - p 0).x, (p 3 - p 0).x;
     (p 1 - p 0).y, (p 2 - p 0).y, (p 3 - p 0).y;
     (p 1 - p 0).z, (p 2 - p 0).z, (p 3 - p 0).z]

/-- the value returned by `Tet::Jacobian` -/
noncomputable def detJ (p : Fin 4 → V3) : ℝ := (jac p).det

/-- `dadu`, tetra.h:151-153 -/
def dadu : Matrix (Fin 4) (Fin 3) ℝ := !![-1, -1, -1; 1, 0, 0; 0, 1, 0; 0, 0, 1]

/-- `da`, tetra.h:154 -/
noncomputable def da (p : Fin 4 → V3) : Matrix (Fin 4) (Fin 3) ℝ := dadu * (jac p)⁻¹

/-- row `i` of `da` as a vector: gradient of hat function `i` -/
noncomputable def daRow (p : Fin 4 → V3) (i : Fin 4) : V3 := ⟨da p i 0, da p i 1, da p i 2⟩

/-- `weight`, tetra.h:156-157 -/
noncomputable def weight (G : Rule) (p : Fin 4 → V3) (j : Fin G.n) : ℝ := detJ p * G.pds j

/-- `Tet::calc_vol`, tetra.cpp:426-427 -/
noncomputable def calcVol (G : Rule) (p : Fin 4 → V3) : ℝ := ∑ j, weight G p j

/-- scalar interpolation, tetra.h:173-179 and 222-232 -/
def interpS (G : Rule) (f : Fin 4 → ℝ) (j : Fin G.n) : ℝ := ∑ i, f i * G.a i j

/-- vector interpolation, tetra.h:189-192 -/
def interpV (G : Rule) (f : Fin 4 → V3) (j : Fin G.n) : V3 := ∑ i, G.a i j * f i

/-- spatial derivative of a vector field along coordinate `d` (`Tx`, `Ty`, `Tz`), tetra.h:196-198; the same
at every Gauss point -/
noncomputable def deriv (p : Fin 4 → V3) (d : Fin 3) (f : Fin 4 → V3) : V3 := ∑ i, da p i d * f i

/-- `interpolation_field`, tetra.h:204-219: minus the gradient of a scalar field -/
noncomputable def interpField (p : Fin 4 → V3) (f : Fin 4 → ℝ) : V3 := - ∑ i, f i * daRow p i

/-- `calc_gradV`, tetra.cpp:77-91 (one column; all are the same) -/
noncomputable def gradV (p : Fin 4 → V3) (V : Fin 4 → ℝ) : V3 := ∑ i, V i * daRow p i

/-- `Tet::getPtGauss`, tetra.h:344-352 -/
def ptGauss (G : Rule) (p : Fin 4 → V3) (j : Fin G.n) : V3 := interpV G p j

open Classical in
/-- `calc_alpha_eff`, tetra.cpp:47-75, at one Gauss point; `g` is `gamma0` -/
noncomputable def alphaEff (g dt alpha h : ℝ) : ℝ :=
  let rdt := g * dt
  let M := 2 * alpha * (1 / 10) / rdt
  if h > 0 then
    if h > M then alpha + rdt / 2 * M else alpha + rdt / 2 * h
  else
    if h < -M then alpha / (1 + rdt / (2 * alpha) * M) else alpha / (1 - rdt / (2 * alpha) * h)

/-- material parameters of a volume region, `Tetra::prm`, tetra.h:87-113 (magnetic part) -/
structure Prm where
  alpha : ℝ
  A : ℝ
  Ms : ℝ
  K : ℝ
  uk : V3
  K3 : ℝ
  ex : V3
  ey : V3
  ez : V3

/-- what an element reads from its nodes -/
structure Nodal where
  /-- positions -/
  p : Fin 4 → V3
  /-- `d[CURRENT].u` -/
  u : Fin 4 → V3
  /-- `d[CURRENT].v` -/
  v : Fin 4 → V3
  phi : Fin 4 → ℝ
  phiv : Fin 4 → ℝ
  ep : Fin 4 → V3
  eq : Fin 4 → V3

/-- `calcDiagBlock`, tetra.cpp:133-140 -/
noncomputable def calcDiagBlock (G : Rule) (p : Fin 4 → V3) (c : ℝ) (x : Fin 4 → ℝ) : Matrix (Fin 4) (Fin 4) ℝ :=
  fun i k => (da p * (da p).transpose) i k * (c * calcVol G p) + (if i = k then x i else 0)

/-- `contrib`, tetra.cpp:114 -/
noncomputable def contrib (G : Rule) (p : Fin 4 → V3) (aeff : Fin G.n → ℝ) (i : Fin 4) : ℝ :=
  ∑ j, G.a i j * (weight G p j * aeff j)

/-- `a_w`, tetra.cpp:121 -/
noncomputable def aw (G : Rule) (p : Fin 4 → V3) (i : Fin 4) : ℝ := ∑ j, G.a i j * weight G p j

/-- the matrix `AE` after `lumping`, tetra.cpp:108-131 (starting from zero, tetra.cpp:259-260). Row `(d, i)`
stands for row `d N + i`. -/
noncomputable def lumping (G : Rule) (p : Fin 4 → V3) (u : Fin 4 → V3) (aeff : Fin G.n → ℝ) (pref : ℝ) :
    Matrix (Fin 3 × Fin 4) (Fin 3 × Fin 4) ℝ := fun r c =>
  let exch := calcDiagBlock G p pref (contrib G p aeff)
  let diag := fun s : ℝ => if r.2 = c.2 then aw G p r.2 * s else 0
  (if r.1 = c.1 then exch r.2 c.2 else 0)
  + (if r.1 = 1 ∧ c.1 = 2 then - diag (u r.2).x else 0)
  + (if r.1 = 2 ∧ c.1 = 1 then diag (u r.2).x else 0)
  + (if r.1 = 0 ∧ c.1 = 2 then diag (u r.2).y else 0)
  + (if r.1 = 2 ∧ c.1 = 0 then - diag (u r.2).y else 0)
  + (if r.1 = 0 ∧ c.1 = 1 then - diag (u r.2).z else 0)
  + (if r.1 = 1 ∧ c.1 = 0 then diag (u r.2).z else 0)

/-- `buildMatP`, element.h:81-96 -/
def matP (ep eq : Fin 4 → V3) : Matrix (Fin 2 × Fin 4) (Fin 3 × Fin 4) ℝ := fun r c =>
  if r.2 = c.2 then (if r.1 = 0 then (ep r.2).comp c.1 else (eq r.2).comp c.1) else 0

/-- left multiplication by `Perm`, tetra.cpp:266-271: exchanges the two block rows -/
def permRows {κ : Type} (M : Fin 2 × Fin 4 → κ) : Fin 2 × Fin 4 → κ := fun r => M (1 - r.1, r.2)

/-- `calc_aniso_uniax`, tetra.cpp:171-181, field at one Gauss point -/
def anisoUniaxH (uk : V3) (Kbis s : ℝ) (U V : V3) : V3 := (Kbis * uk.dot (U + s * V)) * uk

/-- value returned by `calc_aniso_uniax` -/
def anisoUniaxUH (uk : V3) (Kbis : ℝ) (U : V3) : ℝ := Kbis * (U.dot uk * U.dot uk)

/-- component-wise product, Eigen `cwiseProduct` -/
def cwise (a b : V3) : V3 := ⟨a.x * b.x, a.y * b.y, a.z * b.z⟩

/-- `calc_aniso_cub`, tetra.cpp:183-208, field at one Gauss point -/
def anisoCubH (ex ey ez : V3) (K3bis s : ℝ) (U V : V3) : V3 :=
  let uk_u : V3 := ⟨ex.dot U, ey.dot U, ez.dot U⟩
  let uk_v : V3 := ⟨ex.dot V, ey.dot V, ez.dot V⟩
  let f := fun x : ℝ => x * (1 - x * x)
  let uuu : V3 := ⟨f uk_u.x, f uk_u.y, f uk_u.z⟩
  let tmp := cwise uk_v ex
  (-K3bis) * (uuu.x * ex + uuu.y * ey + uuu.z * ez + s * cwise tmp ((⟨1, 1, 1⟩ : V3) - (3 : ℝ) * cwise uk_u uk_u))

/-- value returned by `calc_aniso_cub` -/
def anisoCubUH (ex ey ez : V3) (K3bis : ℝ) (U : V3) : ℝ :=
  let uk_u : V3 := ⟨ex.dot U, ey.dot U, ez.dot U⟩
  let f := fun x : ℝ => x * (1 - x * x)
  (-K3bis) * uk_u.dot ⟨f uk_u.x, f uk_u.y, f uk_u.z⟩

/-- constants of the time step: `gamma0`, `mu0`, `THETA` (config.h.in), `dt`, `prefactor` -/
structure Step where
  gamma0 : ℝ
  mu0 : ℝ
  theta : ℝ
  dt : ℝ
  prefactor : ℝ

/-- `Abis`, tetra.cpp:216 -/
noncomputable def abis (m : Prm) (s : Step) : ℝ := 2 * m.A / (s.mu0 * m.Ms)

/-- `s_dt`, tetra.cpp:218 -/
def sdt (s : Step) : ℝ := s.theta * s.dt * s.gamma0

open Classical in
/-- anisotropy field `H_aniso` at a Gauss point, tetra.cpp:234-247 -/
noncomputable def hAniso (m : Prm) (s : Step) (U V : V3) : V3 :=
  (if m.K ≠ 0 then anisoUniaxH m.uk (2 * m.K / (s.mu0 * m.Ms)) (sdt s / s.gamma0) U V else 0)
  + (if m.K3 ≠ 0 then anisoCubH m.ex m.ey m.ez (2 * m.K3 / (s.mu0 * m.Ms)) (sdt s / s.gamma0) U V else 0)

open Classical in
/-- `uHeff` at a Gauss point, tetra.cpp:232-256; `He` is `Heff` after `+= Hst` -/
noncomputable def uHeff (G : Rule) (m : Prm) (s : Step) (n : Nodal) (He : Fin G.n → V3) (j : Fin G.n) : ℝ :=
  let U := interpV G n.u j
  (-abis m s) * ((deriv n.p 0 n.u).nsq + (deriv n.p 1 n.u).nsq + (deriv n.p 2 n.u).nsq)
  + (if m.K ≠ 0 then anisoUniaxUH m.uk (2 * m.K / (s.mu0 * m.Ms)) U else 0)
  + (if m.K3 ≠ 0 then anisoCubUH m.ex m.ey m.ez (2 * m.K3 / (s.mu0 * m.Ms)) U else 0)
  + U.dot (He j)

/-- the matrix `Kp`, tetra.cpp:257-273. `Hext` is the result of `calc_Hext`, `Hst` that of `extraField` -/
noncomputable def Kp (G : Rule) (m : Prm) (s : Step) (n : Nodal) (Hext Hst : Fin G.n → V3) :
    Matrix (Fin 2 × Fin 4) (Fin 2 × Fin 4) ℝ :=
  let He := fun j => interpField n.p n.phi + Hext j + Hst j
  let aeff := fun j => alphaEff s.gamma0 s.dt m.alpha (uHeff G m s n He j)
  let AE := lumping G n.p n.u aeff (s.prefactor * sdt s * abis m s)
  permRows (matP n.ep n.eq * AE * (matP n.ep n.eq).transpose)

/-- drift term `add_drift_BE`, tetra.cpp:150-169 with the choice of the derivative, tetra.cpp:279-287;
`dir` is `idx_dir` (`none` for `IDX_UNDEF`) -/
noncomputable def driftBE (G : Rule) (m : Prm) (s : Step) (n : Nodal) (dir : Option (Fin 3)) (Vdrift : ℝ) (i : Fin 4) : V3 :=
  match dir with
  | none => 0
  | some d => ∑ j, (Vdrift * weight G n.p j) * (G.a i j *
      (m.alpha * deriv n.p d n.u + (interpV G n.u j).cross (deriv n.p d n.u)
        + sdt s * (m.alpha * deriv n.p d n.v + (interpV G n.u j).cross (deriv n.p d n.v)
          + (interpV G n.v j).cross (deriv n.p d n.u))))

/-- the vector `BE`, tetra.cpp:275-304 -/
noncomputable def BE (G : Rule) (m : Prm) (s : Step) (n : Nodal) (Hext Hst : Fin G.n → V3) (dir : Option (Fin 3))
    (Vdrift : ℝ) (i : Fin 4) : V3 :=
  driftBE G m s n dir Vdrift i + ∑ j,
    (let U := interpV G n.u j
     let V := interpV G n.v j
     let H := interpField n.p n.phi + Hext j + hAniso m s U V + (sdt s / s.gamma0) * interpField n.p n.phiv
     let w := weight G n.p j
     let aiw := w * G.a i j
     (-(w * abis m s)) * (da n.p i 0 * deriv n.p 0 n.u + da n.p i 1 * deriv n.p 1 n.u + da n.p i 2 * deriv n.p 2 n.u)
     + aiw * (H + Hst j)
     - (aiw * (Hst j).dot U * sdt s) * V)

/-- the vector `Lp`, tetra.cpp:306 (`BE` read row by row: entry `(d, i)` is component `d` of column `i`) -/
noncomputable def Lp (G : Rule) (m : Prm) (s : Step) (n : Nodal) (Hext Hst : Fin G.n → V3) (dir : Option (Fin 3))
    (Vdrift : ℝ) : Fin 2 × Fin 4 → ℝ :=
  permRows fun r => ∑ c : Fin 3 × Fin 4, matP n.ep n.eq r c * (BE G m s n Hext Hst dir Vdrift c.2).comp c.1

/-! ## energies and charges -/

/-- `exchangeEnergy`, tetra.cpp:309-318 -/
noncomputable def exchangeEnergy (G : Rule) (m : Prm) (p u : Fin 4 → V3) : ℝ :=
  m.A * ∑ j, weight G p j * ((deriv p 0 u).nsq + (deriv p 1 u).nsq + (deriv p 2 u).nsq)

/-- `uniaxialAnisotropyEnergy`, tetra.cpp:320-328 -/
noncomputable def uniaxialEnergy (G : Rule) (m : Prm) (p u : Fin 4 → V3) : ℝ :=
  -m.K * ∑ j, weight G p j * (m.uk.dot (interpV G u j) * m.uk.dot (interpV G u j))

/-- `cubicAnisotropyEnergy`, tetra.cpp:330-345 -/
noncomputable def cubicEnergy (G : Rule) (m : Prm) (p u : Fin 4 → V3) : ℝ :=
  m.K3 * ∑ j, weight G p j * (
    let al0 := (interpV G u j).dot m.ex
    let al1 := (interpV G u j).dot m.ey
    let al2 := (interpV G u j).dot m.ez
    (al0 * al1) * (al0 * al1) + (al1 * al2) * (al1 * al2) + (al2 * al0) * (al2 * al0))

/-- `Tet::charges`, tetra.cpp:347-359 -/
noncomputable def charges (G : Rule) (Ms : ℝ) (p u : Fin 4 → V3) (j : Fin G.n) : ℝ :=
  -Ms * weight G p j * ((∑ i, (u i).x * da p i 0) + (∑ i, (u i).y * da p i 1) + (∑ i, (u i).z * da p i 2))

/-- `demagEnergy`, tetra.cpp:361-372 -/
noncomputable def demagEnergy (G : Rule) (mu0 Ms : ℝ) (p u : Fin 4 → V3) (phi : Fin 4 → ℝ) : ℝ :=
  -(1 / 2) * mu0 * Ms * ∑ j, weight G p j *
    (((deriv p 0 u).x + (deriv p 1 u).y + (deriv p 2 u).z) * interpS G phi j)

/-- `zeemanEnergy` with a uniform field, tetra.cpp:374-380 -/
noncomputable def zeemanEnergy (G : Rule) (mu0 Ms : ℝ) (p u : Fin 4 → V3) (Hext : V3) : ℝ :=
  -mu0 * Ms * ∑ j, weight G p j * (interpV G u j).dot Hext

/-- `zeemanEnergy` with a space dependent field, tetra.cpp:382-391; `H` is `spaceField[idx]` -/
noncomputable def zeemanEnergySpace (G : Rule) (mu0 Ms amp : ℝ) (p u : Fin 4 → V3) (H : Fin G.n → V3) : ℝ :=
  -mu0 * Ms * amp * ∑ j, weight G p j * (interpV G u j).dot (H j)

end Verif.Tetra
