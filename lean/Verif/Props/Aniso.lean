import Mathlib.Analysis.Calculus.Deriv.Mul
import Mathlib.Analysis.Calculus.Deriv.Add
import Mathlib.Analysis.Calculus.Deriv.Pow
import Verif.Spec.Aniso
import Verif.Spec.Geometry
import Verif.Props.Tetra
import Verif.Props.Node

/-!
# C43: the anisotropy fields derive from the anisotropy energies
-/

namespace Verif.Aniso

open Verif.Tetra

/-- derivative at zero of a quartic polynomial -/
theorem hasDerivAt_poly (a b c d e : ℝ) :
    HasDerivAt (fun τ : ℝ => a + b * τ + c * τ ^ 2 + d * τ ^ 3 + e * τ ^ 4) b 0 := by
  have h := ((((hasDerivAt_const (0 : ℝ) a).add ((hasDerivAt_id (0 : ℝ)).const_mul b)).add
    ((hasDerivAt_pow 2 (0 : ℝ)).const_mul c)).add ((hasDerivAt_pow 3 (0 : ℝ)).const_mul d)).add
    ((hasDerivAt_pow 4 (0 : ℝ)).const_mul e)
  exact h.congr_deriv (by simp)

theorem hasDerivAt_of_poly {f : ℝ → ℝ} (a b c d e : ℝ)
    (hf : ∀ τ, f τ = a + b * τ + c * τ ^ 2 + d * τ ^ 3 + e * τ ^ 4) : HasDerivAt f b 0 := by
  rw [funext hf]
  exact hasDerivAt_poly a b c d e

theorem slope_uniax (K : ℝ) (uk X w : V3) : slope (uniax K uk) X w = -2 * K * uk.dot X * uk.dot w := by
  unfold slope
  refine (hasDerivAt_of_poly (-K * (uk.dot X) ^ 2) _ (-K * (uk.dot w) ^ 2) 0 0 fun τ => ?_).deriv
  unfold uniax
  simp only [V3.dot, V3.add_x, V3.add_y, V3.add_z, V3.smul_x, V3.smul_y, V3.smul_z]
  ring

theorem slope_cubic (K3 : ℝ) (ex ey ez X w : V3) : slope (cubic K3 ex ey ez) X w =
    2 * K3 * (X.dot ex * ((X.dot ey) ^ 2 + (X.dot ez) ^ 2) * w.dot ex + X.dot ey * ((X.dot ez) ^ 2 + (X.dot ex) ^ 2) * w.dot ey
      + X.dot ez * ((X.dot ex) ^ 2 + (X.dot ey) ^ 2) * w.dot ez) := by
  unfold slope
  have e : ∀ τ : ℝ, ∀ k : V3, (X + τ * w).dot k = X.dot k + τ * w.dot k := by
    intro τ k
    simp only [V3.dot, V3.add_x, V3.add_y, V3.add_z, V3.smul_x, V3.smul_y, V3.smul_z]
    ring
  refine (hasDerivAt_of_poly (cubic K3 ex ey ez X) _
    (K3 * ((X.dot ex) ^ 2 * (w.dot ey) ^ 2 + 4 * X.dot ex * X.dot ey * w.dot ex * w.dot ey + (w.dot ex) ^ 2 * (X.dot ey) ^ 2
      + (X.dot ey) ^ 2 * (w.dot ez) ^ 2 + 4 * X.dot ey * X.dot ez * w.dot ey * w.dot ez + (w.dot ey) ^ 2 * (X.dot ez) ^ 2
      + (X.dot ez) ^ 2 * (w.dot ex) ^ 2 + 4 * X.dot ez * X.dot ex * w.dot ez * w.dot ex + (w.dot ez) ^ 2 * (X.dot ex) ^ 2))
    (2 * K3 * (X.dot ex * w.dot ex * (w.dot ey) ^ 2 + (w.dot ex) ^ 2 * X.dot ey * w.dot ey
      + X.dot ey * w.dot ey * (w.dot ez) ^ 2 + (w.dot ey) ^ 2 * X.dot ez * w.dot ez
      + X.dot ez * w.dot ez * (w.dot ex) ^ 2 + (w.dot ez) ^ 2 * X.dot ex * w.dot ex))
    (cubic K3 ex ey ez w) fun τ => ?_).deriv
  unfold cubic
  simp only [e]
  ring

/-! ## uniaxial anisotropy -/

/-- **C43** (uniaxial, pointwise) The anisotropy field of a region without cubic term is, at every point, for every
magnetization (unit or not), velocity and direction, minus the slope of the energy density at the extrapolated
magnetization `U + (θ dt) V`, divided by `mu0 Ms`. -/
theorem C43_uniaxial (m : Prm) (s : Step) (hK3 : m.K3 = 0) (h : s.mu0 * m.Ms ≠ 0) (hg : s.gamma0 ≠ 0) (U V w : V3) :
    s.mu0 * m.Ms * (hAniso m s U V).dot w = -slope (uniax m.K m.uk) (U + (s.theta * s.dt) * V) w := by
  rw [slope_uniax]
  have hs : sdt s / s.gamma0 = s.theta * s.dt := by
    unfold sdt
    field_simp
  unfold hAniso anisoUniaxH
  rw [hs]
  simp only [hK3, ne_eq, not_true_eq_false, if_false]
  obtain ⟨hmu, hMs⟩ := mul_ne_zero_iff.mp h
  by_cases hK : m.K = 0
  · simp [hK, V3.dot]
  · rw [if_pos hK]
    simp only [V3.dot, V3.add_x, V3.add_y, V3.add_z, V3.smul_x, V3.smul_y, V3.smul_z, V3.zero_x, V3.zero_y, V3.zero_z]
    field_simp
    ring

/-- **C43** (uniaxial) as a first order statement -/
theorem C43_uniaxial_derives (K mu0 Ms : ℝ) (uk : V3) (h : mu0 * Ms ≠ 0) :
    DerivesFrom (uniax K uk) (mu0 * Ms) (anisoUniaxH uk (2 * K / (mu0 * Ms))) := by
  intro U V w _ _ _
  obtain ⟨hmu, hMs⟩ := mul_ne_zero_iff.mp h
  have key : ∀ s, slope (uniax K uk) (U + s * V) w + mu0 * Ms * (anisoUniaxH uk (2 * K / (mu0 * Ms)) s U V).dot w = 0 := by
    intro s
    rw [slope_uniax]
    unfold anisoUniaxH
    simp only [V3.dot, V3.add_x, V3.add_y, V3.add_z, V3.smul_x, V3.smul_y, V3.smul_z]
    field_simp
    ring
  constructor
  · have := key 0
    have e : U + (0 : ℝ) * V = U := by ext <;> simp
    rw [e] at this
    linarith
  · rw [funext key]
    exact hasDerivAt_const _ _

/-- **C43** (uniaxial, discrete) The nodal forces `Σ_j w_j a_i(x_j) H(x_j)` assembled from the anisotropy field are minus
the derivative of the energy computed by the code with respect to the nodal magnetization, divided by `mu0 Ms`. -/
theorem C43_uniaxial_discrete (G : Rule) (m : Prm) (mu0 : ℝ) (h : mu0 * m.Ms ≠ 0) (p u w : Fin 4 → V3) :
    HasDerivAt (fun τ : ℝ => uniaxialEnergy G m p fun i => u i + τ * w i)
      (-(mu0 * m.Ms) * ∑ i, (w i).dot (∑ j, (weight G p j * G.a i j) *
        anisoUniaxH m.uk (2 * m.K / (mu0 * m.Ms)) 0 (interpV G u j) 0)) 0 := by
  obtain ⟨hmu, hMs⟩ := mul_ne_zero_iff.mp h
  have hD : -(mu0 * m.Ms) * ∑ i, (w i).dot (∑ j, (weight G p j * G.a i j) *
      anisoUniaxH m.uk (2 * m.K / (mu0 * m.Ms)) 0 (interpV G u j) 0) =
      -2 * m.K * ∑ j, weight G p j * (m.uk.dot (interpV G u j) * m.uk.dot (interpV G w j)) := by
    have e1 : ∀ i, (w i).dot (∑ j, (weight G p j * G.a i j) *
        anisoUniaxH m.uk (2 * m.K / (mu0 * m.Ms)) 0 (interpV G u j) 0) =
        ∑ j, (weight G p j * G.a i j) * ((2 * m.K / (mu0 * m.Ms)) * m.uk.dot (interpV G u j)) * m.uk.dot (w i) := by
      intro i
      simp only [V3.dot, V3.sum_x, V3.sum_y, V3.sum_z, Finset.mul_sum, ← Finset.sum_add_distrib]
      refine Finset.sum_congr rfl fun j _ => ?_
      unfold anisoUniaxH
      simp only [V3.dot, V3.add_x, V3.add_y, V3.add_z, V3.smul_x, V3.smul_y, V3.smul_z, V3.zero_x, V3.zero_y, V3.zero_z]
      ring
    simp only [e1]
    rw [Finset.sum_comm, Finset.mul_sum, Finset.mul_sum]
    refine Finset.sum_congr rfl fun j _ => ?_
    rw [dot_interpV G m.uk w j]
    unfold interpS
    rw [Fin.sum_univ_four, Fin.sum_univ_four]
    field_simp
  rw [hD]
  refine hasDerivAt_of_poly (uniaxialEnergy G m p u) _ (uniaxialEnergy G m p w) 0 0 fun τ => ?_
  have e : ∀ j, m.uk.dot (interpV G (fun i => u i + τ * w i) j) = m.uk.dot (interpV G u j) + τ * m.uk.dot (interpV G w j) := by
    intro j
    rw [dot_interpV, dot_interpV, dot_interpV]
    simp only [interpS, V3.dot, Fin.sum_univ_four, V3.add_x, V3.add_y, V3.add_z, V3.smul_x, V3.smul_y, V3.smul_z]
    ring
  unfold uniaxialEnergy
  simp only [e, Finset.mul_sum, Finset.sum_mul]
  rw [← Finset.sum_add_distrib, ← Finset.sum_add_distrib]
  simp only [zero_mul, add_zero]
  exact Finset.sum_congr rfl fun j _ => by ring

/-! ## cubic anisotropy -/

/-- orthonormal axes: components give back the vector and its norm -/
structure Axes (ex ey ez : V3) : Prop where
  decomp : ∀ u w : V3, u.dot w = u.dot ex * w.dot ex + u.dot ey * w.dot ey + u.dot ez * w.dot ez

/-- a direct orthonormal basis is a system of axes -/
theorem axes_of_direct {ex ey ez : V3} (h : DirectOrthonormal ex ey ez) : Axes ex ey ez := by
  obtain ⟨h1, h2, h3, h4, h5, h6, -⟩ := h
  unfold V3.nsq at h1 h2 h3
  unfold V3.dot at h4 h5 h6
  let M : Matrix (Fin 3) (Fin 3) ℝ := !![ex.x, ex.y, ex.z; ey.x, ey.y, ey.z; ez.x, ez.y, ez.z]
  have hM : M * M.transpose = 1 := by
    ext i j
    rw [Matrix.mul_apply, Fin.sum_univ_three]
    fin_cases i <;> fin_cases j <;> simp [M] <;> linarith
  have hM' : M.transpose * M = 1 := mul_eq_one_comm.mp hM
  have g : ∀ i j, M 0 i * M 0 j + M 1 i * M 1 j + M 2 i * M 2 j = (1 : Matrix (Fin 3) (Fin 3) ℝ) i j := by
    intro i j
    rw [← hM', Matrix.mul_apply, Fin.sum_univ_three]
    rfl
  have g00 : ex.x * ex.x + ey.x * ey.x + ez.x * ez.x = 1 := g 0 0
  have g11 : ex.y * ex.y + ey.y * ey.y + ez.y * ez.y = 1 := g 1 1
  have g22 : ex.z * ex.z + ey.z * ey.z + ez.z * ez.z = 1 := g 2 2
  have g01 : ex.x * ex.y + ey.x * ey.y + ez.x * ez.y = 0 := g 0 1
  have g02 : ex.x * ex.z + ey.x * ey.z + ez.x * ez.z = 0 := g 0 2
  have g12 : ex.y * ex.z + ey.y * ey.z + ez.y * ez.z = 0 := g 1 2
  constructor
  intro u w
  unfold V3.dot
  linear_combination (-(u.x * w.x)) * g00 - (u.y * w.y) * g11 - (u.z * w.z) * g22 - (u.x * w.y + u.y * w.x) * g01
    - (u.x * w.z + u.z * w.x) * g02 - (u.y * w.z + u.z * w.y) * g12

/-- **C43** (cubic) What holds: without extrapolation (`s = 0` or zero velocity) the field derives from the
energy, for every magnetization of any norm, up to a term along the magnetization, which exerts no torque.
The first order term is wrong, see `C43_cubic_negation`. -/
theorem C43_cubic_partial (K3 mu0 Ms : ℝ) (ex ey ez : V3) (hax : DirectOrthonormal ex ey ez) (h : mu0 * Ms ≠ 0)
    (U V w : V3) (hw : U.dot w = 0) :
    mu0 * Ms * (anisoCubH ex ey ez (2 * K3 / (mu0 * Ms)) 0 U V).dot w = -slope (cubic K3 ex ey ez) U w := by
  obtain ⟨hmu, hMs⟩ := mul_ne_zero_iff.mp h
  have d := (axes_of_direct hax).decomp U w
  rw [hw] at d
  rw [slope_cubic]
  unfold anisoCubH
  dsimp only
  have e : ∀ a b c : ℝ, ∀ X : V3, ((-(2 * K3 / (mu0 * Ms))) * (a * ex + b * ey + c * ez + (0 : ℝ) * X)).dot w =
      (-(2 * K3 / (mu0 * Ms))) * (a * w.dot ex + b * w.dot ey + c * w.dot ez) := by
    intro a b c X
    simp only [V3.dot, V3.add_x, V3.add_y, V3.add_z, V3.smul_x, V3.smul_y, V3.smul_z]
    ring
  rw [e, V3.dot_comm ex, V3.dot_comm ey, V3.dot_comm ez]
  generalize U.dot ex = a at *
  generalize U.dot ey = b at *
  generalize U.dot ez = c at *
  generalize w.dot ex = wa at *
  generalize w.dot ey = wb at *
  generalize w.dot ez = wc at *
  field_simp
  linear_combination (K3 * (1 - (a ^ 2 + b ^ 2 + c ^ 2))) * d

/-- **C43** (cubic) The extrapolation over the time step is not the derivative: for every cubic anisotropy
constant there are a unit magnetization and a tangent velocity for which it is wrong to first order. -/
theorem C43_cubic_negation (K3 mu0 Ms : ℝ) (hK : K3 ≠ 0) :
    DirectOrthonormal ⟨1, 0, 0⟩ ⟨0, 1, 0⟩ ⟨0, 0, 1⟩ ∧
    ¬ DerivesFrom (cubic K3 ⟨1, 0, 0⟩ ⟨0, 1, 0⟩ ⟨0, 0, 1⟩) (mu0 * Ms)
      (anisoCubH ⟨1, 0, 0⟩ ⟨0, 1, 0⟩ ⟨0, 0, 1⟩ (2 * K3 / (mu0 * Ms))) := by
  refine ⟨by simp [DirectOrthonormal, V3.nsq, V3.dot, V3.cross], fun hd => ?_⟩
  have h2 := (hd ⟨0, 1, 0⟩ ⟨0, 0, 1⟩ ⟨0, 0, 1⟩ (by simp [V3.nsq]) (by simp [V3.dot]) (by simp [V3.dot])).2
  have e : ∀ s : ℝ, slope (cubic K3 ⟨1, 0, 0⟩ ⟨0, 1, 0⟩ ⟨0, 0, 1⟩) ((⟨0, 1, 0⟩ : V3) + s * (⟨0, 0, 1⟩ : V3)) ⟨0, 0, 1⟩ +
      mu0 * Ms * (anisoCubH ⟨1, 0, 0⟩ ⟨0, 1, 0⟩ ⟨0, 0, 1⟩ (2 * K3 / (mu0 * Ms)) s ⟨0, 1, 0⟩ ⟨0, 0, 1⟩).dot ⟨0, 0, 1⟩ =
      0 + 2 * K3 * s + 0 * s ^ 2 + 0 * s ^ 3 + 0 * s ^ 4 := by
    intro s
    rw [slope_cubic]
    simp [anisoCubH, cwise, V3.dot]
  rw [funext e] at h2
  have := h2.unique (hasDerivAt_poly 0 (2 * K3) 0 0 0)
  apply hK
  linarith

/-! ## surface anisotropy -/

/-- the forces of a triangle with jump `dMs`, tested with nodal directions `w` -/
noncomputable def surfaceForce (G : TriElem.Rule) (Ks dMs : ℝ) (uk : V3) (p u w : Fin 3 → V3) : ℝ :=
  ∑ i, (w i).dot (TriElem.BE G Ks dMs uk p u i)

theorem surfaceForce_eq (G : TriElem.Rule) (Ks dMs : ℝ) (uk : V3) (p u w : Fin 3 → V3) :
    surfaceForce G Ks dMs uk p u w = 2 * Ks / dMs * ∑ j, TriElem.weight G p j *
      (TriElem.interpS G (fun i => (u i).dot uk) j * TriElem.interpS G (fun i => (w i).dot uk) j) := by
  unfold surfaceForce TriElem.BE
  have e1 : ∀ i, (w i).dot (∑ j, (TriElem.weight G p j * (2 * Ks / dMs) * uk.dot (TriElem.interpV G u j) * G.a i j) * uk) =
      ∑ j, TriElem.weight G p j * (2 * Ks / dMs) * uk.dot (TriElem.interpV G u j) * G.a i j * (w i).dot uk := by
    intro i
    simp only [V3.dot, V3.sum_x, V3.sum_y, V3.sum_z, Finset.mul_sum, ← Finset.sum_add_distrib]
    refine Finset.sum_congr rfl fun j _ => ?_
    simp only [V3.smul_x, V3.smul_y, V3.smul_z]
    ring
  simp only [e1]
  rw [Finset.sum_comm, Finset.mul_sum]
  refine Finset.sum_congr rfl fun j _ => ?_
  rw [V3.dot_comm uk, TriElem.interpV_dot G uk u j]
  unfold TriElem.interpS
  rw [Fin.sum_univ_three, Fin.sum_univ_three, Fin.sum_univ_three]
  ring

/-- **C43** (surface) What holds: the nodal forces are minus the derivative of the surface energy divided by the
jump `dMs`. The volume terms are divided by `mu0 Ms`, so the factor `mu0` is missing and the sign is that
of the jump: see the two theorems below. -/
theorem C43_surface_partial (G : TriElem.Rule) (Ks dMs : ℝ) (uk : V3) (h : dMs ≠ 0) (p u w : Fin 3 → V3) :
    HasDerivAt (fun τ : ℝ => TriElem.anisotropyEnergy G Ks uk p fun i => u i + τ * w i)
      (-dMs * surfaceForce G Ks dMs uk p u w) 0 := by
  rw [surfaceForce_eq]
  refine hasDerivAt_of_poly (TriElem.anisotropyEnergy G Ks uk p u) _ (TriElem.anisotropyEnergy G Ks uk p w) 0 0 fun τ => ?_
  have e : ∀ j, TriElem.interpS G (fun i => (u i + τ * w i).dot uk) j =
      TriElem.interpS G (fun i => (u i).dot uk) j + τ * TriElem.interpS G (fun i => (w i).dot uk) j := by
    intro j
    simp only [TriElem.interpS, V3.dot, Fin.sum_univ_three, V3.add_x, V3.add_y, V3.add_z, V3.smul_x, V3.smul_y, V3.smul_z]
    ring
  unfold TriElem.anisotropyEnergy
  simp only [TriElem.interpV_dot, e, Finset.mul_sum, Finset.sum_mul]
  rw [← Finset.sum_add_distrib, ← Finset.sum_add_distrib]
  simp only [zero_mul, add_zero]
  refine Finset.sum_congr rfl fun j _ => ?_
  field_simp
  ring

/-- the forces of a triangle through the products of hat functions -/
theorem BE_eq (G : TriElem.Rule) (Ks dMs : ℝ) (uk : V3) (p u : Fin 3 → V3) (i : Fin 3) :
    TriElem.BE G Ks dMs uk p u i =
      (2 * Ks / dMs * (2 * TriElem.surf p) * ∑ k, uk.dot (u k) * ∑ j, G.pds j * (G.a i j * G.a k j)) * uk := by
  have e : ∀ j, TriElem.weight G p j * (2 * Ks / dMs) * uk.dot (TriElem.interpV G u j) * G.a i j =
      2 * Ks / dMs * (2 * TriElem.surf p) * ∑ k, uk.dot (u k) * (G.pds j * (G.a i j * G.a k j)) := by
    intro j
    rw [V3.dot_comm uk, TriElem.interpV_dot]
    unfold TriElem.interpS TriElem.weight
    simp only [Fin.sum_univ_three, V3.dot_comm uk]
    ring
  have h : ∑ j, TriElem.weight G p j * (2 * Ks / dMs) * uk.dot (TriElem.interpV G u j) * G.a i j =
      2 * Ks / dMs * (2 * TriElem.surf p) * ∑ k, uk.dot (u k) * ∑ j, G.pds j * (G.a i j * G.a k j) := by
    simp only [e]
    rw [← Finset.mul_sum, Finset.sum_comm]
    simp only [Finset.mul_sum]
  rw [← h]
  unfold TriElem.BE
  ext <;> simp [Finset.sum_mul]

/-- exchange of the last two vertices of a triangle -/
def rev {α : Type} (f : Fin 3 → α) : Fin 3 → α := ![f 0, f 2, f 1]

theorem surf_rev (p : Fin 3 → V3) : TriElem.surf (rev p) = TriElem.surf p := by
  unfold TriElem.surf TriElem.normalVect V3.norm
  congr 2
  simp [rev, V3.nsq, V3.cross]
  ring

/-- **C43** (surface) Reversing the orientation of a triangle, which reverses the jump (C26), reverses the forces at
its nodes: surface anisotropy depends on the orientation although its energy does not. -/
theorem C43_surface_orientation (G : TriElem.Rule) (hG : G = TriElem.rule1 ∨ G = TriElem.rule4) (Ks dMs : ℝ) (uk : V3)
    (p u : Fin 3 → V3) :
    (∀ i, TriElem.BE G Ks (-dMs) uk (rev p) (rev u) i = -(rev (TriElem.BE G Ks dMs uk p u) i)) ∧
    TriElem.anisotropyEnergy G Ks uk (rev p) (rev u) = TriElem.anisotropyEnergy G Ks uk p u := by
  have hat : ∃ a b : ℝ, ∀ i k, ∑ j, G.pds j * (G.a i j * G.a k j) = if i = k then a else b := by
    rcases hG with rfl | rfl
    · refine ⟨1 / 18, 1 / 18, fun i k => ?_⟩
      have hp : TriElem.rule1.pds (0 : Fin 1) = 1 / 2 := rfl
      rw [TriElem.rule1_sum, hp, TriElem.rule1_a, TriElem.rule1_a]
      split_ifs <;> norm_num
    · exact ⟨_, _, TriElem.rule4_hat2⟩
  obtain ⟨a, b, hat⟩ := hat
  constructor
  · intro i
    fin_cases i
    all_goals
      simp only [rev, Fin.zero_eta, Fin.mk_one, Fin.reduceFinMk, Matrix.cons_val_zero, Matrix.cons_val_one, Matrix.cons_val]
      rw [BE_eq, BE_eq, show TriElem.surf ![p 0, p 2, p 1] = TriElem.surf p from surf_rev p, div_neg]
      simp only [hat, Fin.sum_univ_three, Matrix.cons_val_zero, Matrix.cons_val_one, Matrix.cons_val]
      ext <;> simp <;> ring_nf <;> simp
  · have e : ∀ p u, TriElem.anisotropyEnergy G Ks uk p u = -Ks * (2 * TriElem.surf p *
        ∑ i, ∑ k, (u i).dot uk * (u k).dot uk * if i = k then a else b) := by
      intro p u
      unfold TriElem.anisotropyEnergy
      congr 1
      simp only [← hat, TriElem.interpV_dot, TriElem.interpS, TriElem.weight, Finset.mul_sum, Finset.sum_mul]
      rw [Finset.sum_comm]
      refine Finset.sum_congr rfl fun i _ => ?_
      rw [Finset.sum_comm]
      exact Finset.sum_congr rfl fun k _ => Finset.sum_congr rfl fun j _ => by ring
    rw [e, e, surf_rev]
    simp [rev, Fin.sum_univ_three]
    left
    left
    ring

/-- what the surface term should satisfy to be consistent with the volume terms, on the surface of a region of
magnetization `Ms`, whatever the orientation of the triangle (jump `Ms` or `-Ms`) -/
def SurfaceOk (G : TriElem.Rule) (mu0 Ms : ℝ) : Prop :=
  ∀ (Ks dMs : ℝ) (uk : V3) (p u w : Fin 3 → V3), (dMs = Ms ∨ dMs = -Ms) →
    HasDerivAt (fun τ : ℝ => TriElem.anisotropyEnergy G Ks uk p fun i => u i + τ * w i)
      (-(mu0 * Ms) * surfaceForce G Ks dMs uk p u w) 0

/-- **C43** (surface) It is not satisfied, for any value of `mu0`. -/
theorem C43_surface_negation (mu0 Ms : ℝ) (h : 0 < Ms) : ¬ SurfaceOk TriElem.rule4 mu0 Ms := by
  intro hs
  let p : Fin 3 → V3 := ![⟨0, 0, 0⟩, ⟨1, 0, 0⟩, ⟨0, 1, 0⟩]
  let u : Fin 3 → V3 := fun _ => ⟨0, 0, 1⟩
  have hf : ∀ dMs, surfaceForce TriElem.rule4 1 dMs ⟨0, 0, 1⟩ p u u = 2 / dMs * TriElem.surf p := by
    intro dMs
    rw [surfaceForce_eq]
    have e : ∀ j, TriElem.interpS TriElem.rule4 (fun i => (u i).dot ⟨0, 0, 1⟩) j = 1 := by
      intro j
      have := TriElem.rule4.a_sum j
      simpa [TriElem.interpS, u, V3.dot] using this
    simp only [e, mul_one]
    rw [TriElem.sum_weight TriElem.rule4_ok]
  have hsurf : TriElem.surf p = 1 / 2 := by
    simp [TriElem.surf, TriElem.normalVect, p, V3.norm, V3.nsq, V3.cross]
  have a1 := hs 1 Ms ⟨0, 0, 1⟩ p u u (Or.inl rfl)
  have a2 := C43_surface_partial TriElem.rule4 1 Ms ⟨0, 0, 1⟩ h.ne' p u u
  have b1 := hs 1 (-Ms) ⟨0, 0, 1⟩ p u u (Or.inr rfl)
  have b2 := C43_surface_partial TriElem.rule4 1 (-Ms) ⟨0, 0, 1⟩ (neg_ne_zero.mpr h.ne') p u u
  have a := a1.unique a2
  have b := b1.unique b2
  rw [hf, hsurf] at a b
  have hM := h.ne'
  field_simp at a b
  linarith

/-! ## concrete case -/

/-- a unit magnetization, a tangent velocity and a tangent direction -/
example : DirectOrthonormal ⟨1, 0, 0⟩ ⟨0, 1, 0⟩ ⟨0, 0, 1⟩ ∧ (⟨0, 3 / 5, 4 / 5⟩ : V3).nsq = 1 ∧
    (⟨0, 3 / 5, 4 / 5⟩ : V3).dot ⟨1, 4, -3⟩ = 0 := by
  refine ⟨?_, ?_, ?_⟩
  · simp [DirectOrthonormal, V3.nsq, V3.dot, V3.cross]
  · norm_num [V3.nsq]
  · norm_num [V3.dot]

end Verif.Aniso
