import Verif.Proofs.Similar
import Verif.Props.Potential
import Verif.Props.MeshElem

/-!
# Energies, charges and potentials of a sample described in another way
-/

namespace Verif.Similarity

open Verif.Mesh Verif.Tetra Verif.MeshElem Verif.Potential

/-! ## tetrahedrons -/

section
variable {G : Tetra.Rule} {τ : Equiv.Perm (Fin 4)} {π : Equiv.Perm (Fin G.n)}

theorem exchangeEnergy_scaled {c : ℝ} (hc : c ≠ 0) (h : GaussT G τ π) (m : Prm) (p u : Fin 4 → V3) :
    Tetra.exchangeEnergy G (mat c m) (scaled c τ p) (fun k => u (τ k)) = c ^ 3 * sg τ * Tetra.exchangeEnergy G m p u := by
  have e : ∀ d, (Tetra.deriv (scaled c τ p) d fun k => u (τ k)).nsq = (c ^ 2)⁻¹ * (Tetra.deriv p d u).nsq := by
    intro d
    rw [deriv_scaled hc]
    simp only [V3.nsq, V3.smul_x, V3.smul_y, V3.smul_z]
    field_simp
  unfold Tetra.exchangeEnergy
  simp only [e, weight_scaled h]
  rw [Equiv.sum_comp π fun j => c ^ 3 * sg τ * Tetra.weight G p j *
    ((c ^ 2)⁻¹ * (Tetra.deriv p 0 u).nsq + (c ^ 2)⁻¹ * (Tetra.deriv p 1 u).nsq + (c ^ 2)⁻¹ * (Tetra.deriv p 2 u).nsq)]
  rw [← Finset.sum_mul, ← Finset.sum_mul, ← Finset.mul_sum]
  unfold mat
  dsimp only
  field_simp

theorem uniaxialEnergy_scaled (c : ℝ) (h : GaussT G τ π) (m : Prm) (p u : Fin 4 → V3) :
    Tetra.uniaxialEnergy G (mat c m) (scaled c τ p) (fun k => u (τ k)) = c ^ 3 * sg τ * Tetra.uniaxialEnergy G m p u := by
  unfold Tetra.uniaxialEnergy
  simp only [interpV_perm h, weight_scaled h]
  have := Equiv.sum_comp π fun j => c ^ 3 * sg τ * Tetra.weight G p j *
    (m.uk.dot (Tetra.interpV G u j) * m.uk.dot (Tetra.interpV G u j))
  unfold mat
  dsimp only
  rw [this]
  simp only [mul_assoc, ← Finset.mul_sum]
  ring

theorem cubicEnergy_scaled (c : ℝ) (h : GaussT G τ π) (m : Prm) (p u : Fin 4 → V3) :
    Tetra.cubicEnergy G (mat c m) (scaled c τ p) (fun k => u (τ k)) = c ^ 3 * sg τ * Tetra.cubicEnergy G m p u := by
  unfold Tetra.cubicEnergy
  dsimp only [mat]
  simp only [interpV_perm h, weight_scaled h]
  rw [Equiv.sum_comp π fun j => c ^ 3 * sg τ * Tetra.weight G p j *
    (((Tetra.interpV G u j).dot m.ex * (Tetra.interpV G u j).dot m.ey) * ((Tetra.interpV G u j).dot m.ex * (Tetra.interpV G u j).dot m.ey)
      + ((Tetra.interpV G u j).dot m.ey * (Tetra.interpV G u j).dot m.ez) * ((Tetra.interpV G u j).dot m.ey * (Tetra.interpV G u j).dot m.ez)
      + ((Tetra.interpV G u j).dot m.ez * (Tetra.interpV G u j).dot m.ex) * ((Tetra.interpV G u j).dot m.ez * (Tetra.interpV G u j).dot m.ex))]
  rw [Finset.mul_sum, Finset.mul_sum, Finset.mul_sum]
  exact Finset.sum_congr rfl fun j _ => by ring

theorem charges_scaled {c : ℝ} (hc : c ≠ 0) (h : GaussT G τ π) (Ms : ℝ) (p u : Fin 4 → V3) (j : Fin G.n) :
    Tetra.charges G Ms (scaled c τ p) (fun k => u (τ k)) j = c ^ 2 * sg τ * Tetra.charges G Ms p u (π j) := by
  unfold Tetra.charges
  rw [weight_scaled h]
  simp only [da_scaled hc]
  rw [Equiv.sum_comp τ fun k => (u k).x * (c⁻¹ * da p k 0), Equiv.sum_comp τ fun k => (u k).y * (c⁻¹ * da p k 1),
    Equiv.sum_comp τ fun k => (u k).z * (c⁻¹ * da p k 2)]
  simp only [Fin.sum_univ_four]
  field_simp

theorem demagEnergy_scaled {c : ℝ} (hc : c ≠ 0) (h : GaussT G τ π) (mu0 Ms : ℝ) (p u : Fin 4 → V3) (phi : Fin 4 → ℝ) :
    Tetra.demagEnergy G mu0 Ms (scaled c τ p) (fun k => u (τ k)) (fun k => c * phi (τ k)) =
      c ^ 3 * sg τ * Tetra.demagEnergy G mu0 Ms p u phi := by
  have e : ∀ j, Tetra.interpS G (fun k => c * phi (τ k)) j = c * Tetra.interpS G phi (π j) := by
    intro j
    rw [← interpS_perm h]
    unfold Tetra.interpS
    rw [Finset.mul_sum]
    exact Finset.sum_congr rfl fun k _ => by ring
  unfold Tetra.demagEnergy
  simp only [e, weight_scaled h, deriv_scaled hc]
  rw [Equiv.sum_comp π fun j => c ^ 3 * sg τ * Tetra.weight G p j *
    (((c⁻¹ * Tetra.deriv p 0 u : V3).x + (c⁻¹ * Tetra.deriv p 1 u : V3).y + (c⁻¹ * Tetra.deriv p 2 u : V3).z)
      * (c * Tetra.interpS G phi j))]
  rw [Finset.mul_sum, Finset.mul_sum, Finset.mul_sum]
  refine Finset.sum_congr rfl fun j _ => ?_
  simp only [V3.smul_x, V3.smul_y, V3.smul_z]
  field_simp

theorem zeemanEnergy_scaled (c : ℝ) (h : GaussT G τ π) (mu0 Ms : ℝ) (p u : Fin 4 → V3) (Hext : V3) :
    Tetra.zeemanEnergy G mu0 Ms (scaled c τ p) (fun k => u (τ k)) Hext = c ^ 3 * sg τ * Tetra.zeemanEnergy G mu0 Ms p u Hext := by
  unfold Tetra.zeemanEnergy
  simp only [interpV_perm h, weight_scaled h]
  rw [Equiv.sum_comp π fun j => c ^ 3 * sg τ * Tetra.weight G p j * (Tetra.interpV G u j).dot Hext,
    Finset.mul_sum, Finset.mul_sum, Finset.mul_sum]
  exact Finset.sum_congr rfl fun j _ => by ring

theorem zeemanEnergySpace_scaled (c : ℝ) (h : GaussT G τ π) (mu0 Ms amp : ℝ) (p u : Fin 4 → V3) (F : Fin G.n → V3) :
    Tetra.zeemanEnergySpace G mu0 Ms amp (scaled c τ p) (fun k => u (τ k)) (fun j => F (π j)) =
      c ^ 3 * sg τ * Tetra.zeemanEnergySpace G mu0 Ms amp p u F := by
  unfold Tetra.zeemanEnergySpace
  simp only [interpV_perm h, weight_scaled h]
  rw [Equiv.sum_comp π fun j => c ^ 3 * sg τ * Tetra.weight G p j * (Tetra.interpV G u j).dot (F j),
    Finset.mul_sum, Finset.mul_sum, Finset.mul_sum]
  exact Finset.sum_congr rfl fun j _ => by ring

theorem ptGauss_scaled (c : ℝ) (h : GaussT G τ π) (p : Fin 4 → V3) (j : Fin G.n) :
    Tetra.ptGauss G (scaled c τ p) j = c * Tetra.ptGauss G p (π j) := by
  unfold Tetra.ptGauss
  rw [← interpV_perm h]
  unfold Tetra.interpV scaled
  simp only [Fin.sum_univ_four]
  ext <;> simp <;> ring

/-- potential of the charges of a tetrahedron at a point, summed directly -/
theorem tetPot_scaled {c : ℝ} (hc : c ≠ 0) (h : GaussT G τ π) (ho : 0 < c ^ 3 * sg τ) (Ms : ℝ) (p u : Fin 4 → V3) (y : V3) :
    ∑ j, Tetra.charges G Ms (scaled c τ p) (fun k => u (τ k)) j / (c * y - Tetra.ptGauss G (scaled c τ p) j).norm =
      c * ∑ j, Tetra.charges G Ms p u j / (y - Tetra.ptGauss G p j).norm := by
  rw [Finset.mul_sum, ← Equiv.sum_comp π fun j => c * (Tetra.charges G Ms p u j / (y - Tetra.ptGauss G p j).norm)]
  refine Finset.sum_congr rfl fun j _ => ?_
  rw [charges_scaled hc h, ptGauss_scaled c h]
  have e : (c * y - c * Tetra.ptGauss G p (π j) : V3) = c * (y - Tetra.ptGauss G p (π j)) := by
    ext <;> simp <;> ring
  have hs : sg τ * |c| = c := by
    have h0 : (0 : ℝ) < c * sg τ := by
      have h2 : (0 : ℝ) < c ^ 2 := by positivity
      have : c ^ 3 * sg τ = c ^ 2 * (c * sg τ) := by ring
      rw [this] at ho
      exact (pos_iff_pos_of_mul_pos ho).mp h2
    rcases sg_cases τ with h1 | h1 <;> rw [h1] at h0 ⊢
    · rw [abs_of_pos (by linarith)]; ring
    · rw [abs_of_neg (by linarith)]; ring
  rw [e, norm_smul']
  have ha : |c| ≠ 0 := abs_ne_zero.mpr hc
  have h2 : c ^ 2 * sg τ / |c| = c := by
    rw [div_eq_iff ha, ← sq_abs c]
    linear_combination |c| * hs
  calc c ^ 2 * sg τ * Tetra.charges G Ms p u (π j) / (|c| * (y - Tetra.ptGauss G p (π j)).norm)
      = (c ^ 2 * sg τ / |c|) * (Tetra.charges G Ms p u (π j) / (y - Tetra.ptGauss G p (π j)).norm) := by
        rw [mul_div_mul_comm]
    _ = _ := by rw [h2]

end

/-! ## triangles -/

theorem unitNormal_scaled {c : ℝ} (hc : c ≠ 0) (τ : Equiv.Perm (Fin 3)) (p : Fin 3 → V3) :
    TriElem.unitNormal (scaled c τ p) = sg τ * TriElem.unitNormal p := by
  unfold TriElem.unitNormal
  rw [normalVect_scaled]
  unfold V3.normalize
  have e : ((c ^ 2 * sg τ) * TriElem.normalVect p : V3).nsq = c ^ 4 * (TriElem.normalVect p).nsq := by
    have := sg_sq τ
    simp only [V3.nsq, V3.smul_x, V3.smul_y, V3.smul_z]
    linear_combination (c ^ 4 * ((TriElem.normalVect p).x * (TriElem.normalVect p).x
      + (TriElem.normalVect p).y * (TriElem.normalVect p).y + (TriElem.normalVect p).z * (TriElem.normalVect p).z)) * this
  have hc4 : (0 : ℝ) < c ^ 4 := by positivity
  rw [e]
  by_cases h : 0 < (TriElem.normalVect p).nsq
  · rw [if_pos h, if_pos (by positivity)]
    have hn : √(TriElem.normalVect p).nsq ≠ 0 := (Real.sqrt_pos.mpr h).ne'
    have h4 : √(c ^ 4 * (TriElem.normalVect p).nsq) = c ^ 2 * √(TriElem.normalVect p).nsq := by
      rw [Real.sqrt_mul hc4.le, show c ^ 4 = (c ^ 2) ^ 2 by ring, Real.sqrt_sq (sq_nonneg c)]
    rw [h4]
    ext <;> simp <;> field_simp
  · have h0 : (TriElem.normalVect p).nsq = 0 := le_antisymm (not_lt.mp h) (Tetra.nsq_nonneg _)
    have hz : TriElem.normalVect p = 0 := Tetra.nsq_eq_zero h0
    rw [if_neg h, if_neg (by rw [h0]; simp), hz]
    ext <;> simp

section
variable {H : TriElem.Rule} {τ : Equiv.Perm (Fin 3)} {π : Equiv.Perm (Fin H.n)}

theorem triCharges_scaled {c : ℝ} (hc : c ≠ 0) (h : GaussF H τ π) (e : ℝ) (he : e = 1 ∨ e = -1) (dMs : ℝ) (p u : Fin 3 → V3)
    (j : Fin H.n) :
    TriElem.charges H (e * dMs) (scaled c τ p) (fun k => u (τ k)) j = e * sg τ * c ^ 2 * TriElem.charges H dMs p u (π j) := by
  have hz : e * dMs ≠ 0 ↔ dMs ≠ 0 := by rcases he with rfl | rfl <;> simp
  unfold TriElem.charges
  by_cases h0 : dMs ≠ 0
  · rw [if_pos h0, if_pos (hz.mpr h0), triWeight_scaled h, triInterpV_perm h, unitNormal_scaled hc]
    simp only [V3.dot, V3.smul_x, V3.smul_y, V3.smul_z]
    ring
  · rw [if_neg h0, if_neg (fun h => h0 (hz.mp h)), mul_zero]

theorem triDemagEnergy_scaled {c : ℝ} (hc : c ≠ 0) (h : GaussF H τ π) (e mu0 dMs : ℝ) (p u : Fin 3 → V3) (phi : Fin 3 → ℝ) :
    TriElem.demagEnergy H mu0 (e * dMs) (scaled c τ p) (fun k => u (τ k)) (fun k => c * phi (τ k)) =
      e * sg τ * c ^ 3 * TriElem.demagEnergy H mu0 dMs p u phi := by
  have e1 : ∀ j, TriElem.interpS H (fun k => c * phi (τ k)) j = c * TriElem.interpS H phi (π j) := by
    intro j
    rw [← triInterpS_perm h]
    unfold TriElem.interpS
    rw [Finset.mul_sum]
    exact Finset.sum_congr rfl fun k _ => by ring
  unfold TriElem.demagEnergy
  simp only [e1, triWeight_scaled h, triInterpV_perm h, unitNormal_scaled hc]
  rw [Equiv.sum_comp π fun j => (TriElem.interpV H u j).dot (sg τ * TriElem.unitNormal p) * (c * TriElem.interpS H phi j)
    * (c ^ 2 * TriElem.weight H p j), Finset.mul_sum, Finset.mul_sum, Finset.mul_sum]
  refine Finset.sum_congr rfl fun j _ => ?_
  simp only [V3.dot, V3.smul_x, V3.smul_y, V3.smul_z]
  ring

theorem triAniso_scaled (c : ℝ) (h : GaussF H τ π) (Ks : ℝ) (uk : V3) (p u : Fin 3 → V3) :
    TriElem.anisotropyEnergy H (|c| * Ks) uk (scaled c τ p) (fun k => u (τ k)) =
      |c| ^ 3 * TriElem.anisotropyEnergy H Ks uk p u := by
  unfold TriElem.anisotropyEnergy
  simp only [triWeight_scaled h, triInterpV_perm h]
  rw [Equiv.sum_comp π fun j => c ^ 2 * TriElem.weight H p j * ((TriElem.interpV H u j).dot uk * (TriElem.interpV H u j).dot uk),
    Finset.mul_sum, Finset.mul_sum, Finset.mul_sum]
  refine Finset.sum_congr rfl fun j _ => ?_
  rw [← sq_abs c]
  ring

theorem triPtGauss_scaled (c : ℝ) (h : GaussF H τ π) (p : Fin 3 → V3) (j : Fin H.n) :
    TriElem.ptGauss H (scaled c τ p) j = c * TriElem.ptGauss H p (π j) := by
  unfold TriElem.ptGauss
  rw [← triInterpV_perm h]
  unfold TriElem.interpV scaled
  simp only [Fin.sum_univ_three]
  ext <;> simp <;> ring

theorem triPot_scaled {c : ℝ} (hc : c ≠ 0) (h : GaussF H τ π) (e : ℝ) (he : e = 1 ∨ e = -1) (hs : e * sg τ * |c| = c) (dMs : ℝ)
    (p u : Fin 3 → V3) (y : V3) :
    ∑ j, TriElem.charges H (e * dMs) (scaled c τ p) (fun k => u (τ k)) j / (c * y - TriElem.ptGauss H (scaled c τ p) j).norm =
      c * ∑ j, TriElem.charges H dMs p u j / (y - TriElem.ptGauss H p j).norm := by
  rw [Finset.mul_sum, ← Equiv.sum_comp π fun j => c * (TriElem.charges H dMs p u j / (y - TriElem.ptGauss H p j).norm)]
  refine Finset.sum_congr rfl fun j _ => ?_
  rw [triCharges_scaled hc h e he, triPtGauss_scaled c h]
  have e1 : (c * y - c * TriElem.ptGauss H p (π j) : V3) = c * (y - TriElem.ptGauss H p (π j)) := by
    ext <;> simp <;> ring
  rw [e1, norm_smul']
  have ha : |c| ≠ 0 := abs_ne_zero.mpr hc
  have h2 : e * sg τ * c ^ 2 / |c| = c := by
    rw [div_eq_iff ha, ← sq_abs c, sq, ← mul_assoc, hs]
  calc e * sg τ * c ^ 2 * TriElem.charges H dMs p u (π j) / (|c| * (y - TriElem.ptGauss H p (π j)).norm)
      = (e * sg τ * c ^ 2 / |c|) * (TriElem.charges H dMs p u (π j) / (y - TriElem.ptGauss H p (π j)).norm) := by
        rw [mul_div_mul_comm]
    _ = _ := by rw [h2]

end

/-! ### the exact potential of a triangle -/

/-- potential of a triangle with charges affine between the values at the vertices -/
noncomputable def affPot (p : Fin 3 → V3) (s : Fin 3 → ℝ) (y : V3) : ℝ :=
  surfacePotential (p 0) (p 1) (p 2) y (affine (s 0) (s 1) (s 2))

theorem affPot_rot (p : Fin 3 → V3) (s : Fin 3 → ℝ) (y : V3) : affPot (fun k => p (k + 1)) (fun k => s (k + 1)) y = affPot p s y := by
  unfold affPot
  rw [surfacePotential_rot (p 0) (p 1) (p 2), affine_rot]
  rfl

open MeasureTheory in
theorem surfacePotential_swap (a b c y : V3) (sigma : ℝ × ℝ → ℝ) :
    surfacePotential a c b y (fun q => sigma q.swap) = surfacePotential a b c y sigma := by
  unfold surfacePotential
  have hpre : (Prod.swap : ℝ × ℝ → ℝ × ℝ) ⁻¹' refTri = refTri := by
    ext ⟨x, z⟩
    simp only [Set.mem_preimage, refTri, Set.mem_ofPred_eq, Prod.swap]
    constructor <;> rintro ⟨h1, h2, h3⟩ <;> exact ⟨h2, h1, by linarith⟩
  have h := (Measure.measurePreserving_swap (μ := (volume : Measure ℝ)) (ν := (volume : Measure ℝ))).setIntegral_preimage_emb
    (MeasurableEquiv.prodComm.measurableEmbedding) (integrand a b c y sigma) refTri
  rw [hpre] at h
  rw [← Measure.volume_eq_prod] at h
  rw [← h]
  congr 1
  funext q
  unfold integrand
  have h1 : point a c b q = point a b c q.swap := by
    unfold point
    ext <;> simp <;> ring
  have h2 : areaRatio a c b = areaRatio a b c := by
    unfold areaRatio V3.norm
    congr 1
    simp only [V3.nsq, V3.cross, V3.sub_x, V3.sub_y, V3.sub_z]
    ring
  rw [h1, h2]

theorem affPot_swap12 (p : Fin 3 → V3) (s : Fin 3 → ℝ) (y : V3) :
    affPot (fun k => p (Equiv.swap 1 2 k)) (fun k => s (Equiv.swap 1 2 k)) y = affPot p s y := by
  unfold affPot
  rw [← surfacePotential_swap (p 0) (p 1) (p 2)]
  congr 1
  funext q
  unfold affine
  have e0 : Equiv.swap (1 : Fin 3) 2 0 = 0 := by decide
  simp only [e0, Equiv.swap_apply_left, Equiv.swap_apply_right, Prod.fst_swap, Prod.snd_swap]
  ring

theorem affPot_perm (τ : Equiv.Perm (Fin 3)) :
    ∀ (p : Fin 3 → V3) (s : Fin 3 → ℝ) (y : V3), affPot (fun k => p (τ k)) (fun k => s (τ k)) y = affPot p s y := by
  have key : ∀ τ : Equiv.Perm (Fin 3), ∃ (i : Fin 3) (b : Bool), ∀ k, τ k = (if b then Equiv.swap 1 2 k else k) + i := by decide
  intro p s y
  have hrot : ∀ (i : Fin 3) (p : Fin 3 → V3) (s : Fin 3 → ℝ), affPot (fun k => p (k + i)) (fun k => s (k + i)) y = affPot p s y := by
    intro i p s
    fin_cases i
    · simp
    · exact affPot_rot p s y
    · rw [← affPot_rot p s y, ← affPot_rot (fun k => p (k + 1)) (fun k => s (k + 1)) y]
      congr 1 <;> funext k <;> congr 1 <;> fin_cases k <;> rfl
  obtain ⟨i, b, h⟩ := key τ
  simp only [h]
  cases b with
  | true =>
    simp only [if_true]
    rw [affPot_swap12 (fun k => p (k + i)) (fun k => s (k + i)), hrot]
  | false =>
    simp only [Bool.false_eq_true, if_false]
    exact hrot i p s

theorem affPot_smul {c : ℝ} (hc : c ≠ 0) (p : Fin 3 → V3) (s : Fin 3 → ℝ) (y : V3) :
    affPot (fun k => c * p k) s (c * y) = |c| * affPot p s y := by
  unfold affPot surfacePotential
  rw [← MeasureTheory.integral_const_mul]
  congr 1
  funext q
  unfold integrand
  have h1 : (point (c * p 0) (c * p 1) (c * p 2) q - c * y : V3) = c * (point (p 0) (p 1) (p 2) q - y) := by
    unfold point
    ext <;> simp <;> ring
  have h2 : areaRatio (c * p 0) (c * p 1) (c * p 2) = c ^ 2 * areaRatio (p 0) (p 1) (p 2) := by
    unfold areaRatio
    have : V3.cross (c * p 1 - c * p 0) (c * p 2 - c * p 0) = (c ^ 2) * V3.cross (p 1 - p 0) (p 2 - p 0) := by
      ext <;> simp [V3.cross] <;> ring
    rw [this, norm_smul', abs_of_nonneg (sq_nonneg c)]
  have ha : |c| ≠ 0 := abs_ne_zero.mpr hc
  rw [h1, h2, norm_smul', ← sq_abs c]
  field_simp

/-- area of a triangle that may be degenerate -/
theorem areaRatio_scaled (c : ℝ) (τ : Equiv.Perm (Fin 3)) (p : Fin 3 → V3) :
    areaRatio (scaled c τ p 0) (scaled c τ p 1) (scaled c τ p 2) = c ^ 2 * areaRatio (p 0) (p 1) (p 2) := by
  have h := surf_scaled c τ p
  unfold TriElem.surf TriElem.normalVect at h
  unfold areaRatio
  linarith

theorem affPot_const_mul (k : ℝ) (p : Fin 3 → V3) (s : Fin 3 → ℝ) (y : V3) : affPot p (fun i => k * s i) y = k * affPot p s y := by
  unfold affPot
  rw [← surfacePotential_smul]
  congr 1
  funext q
  unfold affine
  ring

theorem potentialAt_affPot (dMs : ℝ) (p u : Fin 3 → V3) (hS : areaRatio (p 0) (p 1) (p 2) ≠ 0) (i : Fin 3) :
    TriElem.potentialAt dMs p u i = dMs * affPot p (fun k => (u k).dot (TriElem.unitNormal p)) (p i) := by
  rw [potentialAt_eq dMs p u hS i, density_eq dMs p u hS, surfacePotential_smul]
  rfl

theorem potentialAt_scaled {c : ℝ} (hc : c ≠ 0) (τ : Equiv.Perm (Fin 3)) (e : ℝ) (hs : e * sg τ * |c| = c) (dMs : ℝ)
    (p u : Fin 3 → V3) (hS : areaRatio (p 0) (p 1) (p 2) ≠ 0) (i : Fin 3) :
    TriElem.potentialAt (e * dMs) (scaled c τ p) (fun k => u (τ k)) i = c * TriElem.potentialAt dMs p u (τ i) := by
  have hS' : areaRatio (scaled c τ p 0) (scaled c τ p 1) (scaled c τ p 2) ≠ 0 := by
    rw [areaRatio_scaled]
    exact mul_ne_zero (pow_ne_zero _ hc) hS
  rw [potentialAt_affPot _ _ _ hS', potentialAt_affPot _ _ _ hS, unitNormal_scaled hc]
  have e1 : (fun k => (u (τ k)).dot (sg τ * TriElem.unitNormal p)) =
      fun k => sg τ * (fun k => (u k).dot (TriElem.unitNormal p)) (τ k) := by
    funext k
    simp only [V3.dot, V3.smul_x, V3.smul_y, V3.smul_z]
    ring
  rw [e1, affPot_const_mul]
  have e2 := affPot_smul hc (fun k => p (τ k)) (fun k => (fun k => (u k).dot (TriElem.unitNormal p)) (τ k)) (p (τ i))
  rw [affPot_perm τ p (fun k => (u k).dot (TriElem.unitNormal p))] at e2
  have e3 : affPot (scaled c τ p) (fun k => (fun k => (u k).dot (TriElem.unitNormal p)) (τ k)) (scaled c τ p i) =
      |c| * affPot p (fun k => (u k).dot (TriElem.unitNormal p)) (p (τ i)) := e2
  rw [e3]
  linear_combination dMs * affPot p (fun k => (u k).dot (TriElem.unitNormal p)) (p (τ i)) * hs

theorem correction_scaled {H : TriElem.Rule} {τ : Equiv.Perm (Fin 3)} {π : Equiv.Perm (Fin H.n)} {c : ℝ} (hc : c ≠ 0)
    (h : GaussF H τ π) (e : ℝ) (he : e = 1 ∨ e = -1) (hs : e * sg τ * |c| = c) (dMs : ℝ)
    (p u : Fin 3 → V3) (hS : areaRatio (p 0) (p 1) (p 2) ≠ 0) (i : Fin 3) :
    TriElem.correction H (e * dMs) (scaled c τ p) (fun k => u (τ k)) i = c * TriElem.correction H dMs p u (τ i) := by
  unfold TriElem.correction
  rw [potentialAt_scaled hc τ e hs dMs p u hS, mul_add]
  congr 1
  have := triPot_scaled hc h e he hs dMs p u (p (τ i))
  rw [mul_neg, ← this]
  rfl

end Verif.Similarity
