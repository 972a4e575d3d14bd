import Mathlib.MeasureTheory.Function.Jacobian
import Verif.Proofs.ContinuumPot
import Verif.Spec.SpinSource

/-!
# Integrals of affine functions over a tetrahedron
-/

namespace Verif.Continuum

open MeasureTheory Verif.Tetra

theorem ref_affine3 (M : Matrix (Fin 3) (Fin 3) ℝ) (hM : |M.det| = 1) (c : Fin 3 → ℝ) (h : ∀ q, c + M.mulVec q ∈ refSet 3 ↔ q ∈ refSet 3)
    (f : (Fin 3 → ℝ) → ℝ) : ∫ q in refSet 3, f (c + M.mulVec q) = ∫ q in refSet 3, f q := by
  have h0 : M.det ≠ 0 := by
    intro h0
    rw [h0, abs_zero] at hM
    exact zero_ne_one hM
  have mp : MeasurePreserving (fun q : Fin 3 → ℝ => c + M.mulVec q) volume volume := by
    have h1 : MeasurePreserving (Matrix.toLin' M) (volume : Measure (Fin 3 → ℝ)) volume := by
      refine ⟨(LinearMap.continuous_of_finiteDimensional _).measurable, ?_⟩
      rw [Real.map_matrix_volume_pi_eq_smul_volume_pi h0, abs_inv, hM]
      simp
    exact (measurePreserving_add_left volume c).comp h1
  have emb : MeasurableEmbedding (fun q : Fin 3 → ℝ => c + M.mulVec q) := by
    have hi : Function.Injective (Matrix.toLin' M) := by
      have := Matrix.mulVec_injective_iff_isUnit.mpr ((Matrix.isUnit_iff_isUnit_det M).mpr (isUnit_iff_ne_zero.mpr h0))
      intro a b hab
      exact this (by simpa using hab)
    have h1 : MeasurableEmbedding (Matrix.toLin' M) :=
      ((LinearMap.continuous_of_finiteDimensional _).measurableEmbedding hi)
    exact (measurableEmbedding_addLeft c).comp h1
  have := mp.setIntegral_preimage_emb emb f (refSet 3)
  have e : (fun q : Fin 3 → ℝ => c + M.mulVec q) ⁻¹' refSet 3 = refSet 3 := Set.ext fun q => h q
  rw [e] at this
  exact this

theorem mem_ref3 (q : Fin 3 → ℝ) : q ∈ refSet 3 ↔ (0 ≤ q 0 ∧ 0 ≤ q 1 ∧ 0 ≤ q 2) ∧ q 0 + q 1 + q 2 ≤ 1 := by
  unfold refSet
  rw [Set.mem_ofPred_eq, Fin.sum_univ_three, Fin.forall_fin_succ, Fin.forall_fin_two]
  rfl

theorem ref_cont3 {f : (Fin 3 → ℝ) → ℝ} (hf : Continuous f) : IntegrableOn f (refSet 3) :=
  hf.continuousOn.integrableOn_compact (isCompact_refSet 3)

theorem ref_one3 : ∫ _ in refSet 3, (1 : ℝ) = 1 / 6 := by
  rw [setIntegral_const, Measure.real, volume_refSet, ENNReal.toReal_ofReal (by positivity)]
  norm_num [Nat.factorial]

theorem ref_coord3 : (∫ q in refSet 3, q 0 = 1 / 24) ∧ (∫ q in refSet 3, q 1 = 1 / 24) ∧ ∫ q in refSet 3, q 2 = 1 / 24 := by
  have h1 := ref_affine3 !![0, 1, 0; 1, 0, 0; 0, 0, 1] (by simp [Matrix.det_fin_three]) 0 (fun q => by
    rw [mem_ref3, mem_ref3]
    simp [dotProduct, Fin.sum_univ_three]
    constructor
    · rintro ⟨⟨a, b, c⟩, d⟩
      exact ⟨⟨b, a, c⟩, by linarith⟩
    · rintro ⟨⟨a, b, c⟩, d⟩
      exact ⟨⟨b, a, c⟩, by linarith⟩) (fun q => q 0)
  have h2 := ref_affine3 !![0, 0, 1; 0, 1, 0; 1, 0, 0] (by simp [Matrix.det_fin_three]) 0 (fun q => by
    rw [mem_ref3, mem_ref3]
    simp [dotProduct, Fin.sum_univ_three]
    constructor
    · rintro ⟨⟨a, b, c⟩, d⟩
      exact ⟨⟨c, b, a⟩, by linarith⟩
    · rintro ⟨⟨a, b, c⟩, d⟩
      exact ⟨⟨c, b, a⟩, by linarith⟩) (fun q => q 0)
  have h3 := ref_affine3 !![-1, -1, -1; 0, 1, 0; 0, 0, 1] (by simp [Matrix.det_fin_three]) ![1, 0, 0] (fun q => by
    rw [mem_ref3, mem_ref3]
    simp [dotProduct, Fin.sum_univ_three]
    constructor
    · rintro ⟨⟨a, b, c⟩, d⟩
      exact ⟨⟨by linarith, b, c⟩, by linarith⟩
    · rintro ⟨⟨a, b, c⟩, d⟩
      exact ⟨⟨by linarith, b, c⟩, by linarith⟩) (fun q => q 0)
  simp [dotProduct, Fin.sum_univ_three] at h1 h2 h3
  have e : ∀ q : Fin 3 → ℝ, 1 + (-q 0 + -q 1 + -q 2) = 1 - (q 0 + q 1 + q 2) := fun q => by ring
  simp only [e] at h3
  rw [integral_sub (ref_cont3 continuous_const) (ref_cont3 (by fun_prop)),
    integral_add (ref_cont3 (by fun_prop)) (ref_cont3 (by fun_prop)),
    integral_add (ref_cont3 (by fun_prop)) (ref_cont3 (by fun_prop)), ref_one3] at h3
  refine ⟨?_, ?_, ?_⟩ <;> linarith

theorem tetIntegral_affine {p : Fin 4 → V3} (hp : detJ p ≠ 0) {v : Fin 4 → ℝ} {f : V3 → ℝ} (hf : AffineOn p v f) :
    tetIntegral p f = tetVolume p * ((v 0 + v 1 + v 2 + v 3) / 4) := by
  set T : Pt → Pt := fun q => toPt (p 0) + Matrix.toLin' (jac p) q with hT
  have himg : tetSet p = T '' refSet 3 := by
    rw [tetSet_image, Set.image_image]
  have hd : ∀ q ∈ refSet 3, HasFDerivWithinAt T (LinearMap.toContinuousLinearMap (Matrix.toLin' (jac p))) (refSet 3) q := by
    intro q _
    exact ((LinearMap.toContinuousLinearMap (Matrix.toLin' (jac p))).hasFDerivAt.const_add (toPt (p 0))).hasFDerivWithinAt
  have hinj : Set.InjOn T (refSet 3) := by
    intro a _ b _ hab
    have hab : toPt (p 0) + (jac p).mulVec a = toPt (p 0) + (jac p).mulVec b := by simpa [hT] using hab
    have := Matrix.mulVec_injective_iff_isUnit.mpr ((Matrix.isUnit_iff_isUnit_det (jac p)).mpr (isUnit_iff_ne_zero.mpr hp))
    exact this (add_left_cancel hab)
  have key := integral_image_eq_integral_abs_det_fderiv_smul volume (refSet_closed 3).measurableSet hd hinj (fun x => f (ofPt x))
  have hdet : (LinearMap.toContinuousLinearMap (Matrix.toLin' (jac p))).det = detJ p := by
    rw [LinearMap.det_toContinuousLinearMap, LinearMap.det_toLin']
    rfl
  have hval : ∀ q ∈ refSet 3, f (ofPt (T q)) = v 0 + (q 0 * (v 1 - v 0) + q 1 * (v 2 - v 0) + q 2 * (v 3 - v 0)) := by
    intro q hq
    rw [mem_ref3] at hq
    have e1 : ofPt (T q) = ∑ i, ![1 - q 0 - q 1 - q 2, q 0, q 1, q 2] i * p i := by
      have : T q = toPt (p 0 + q 0 * (p 1 - p 0) + q 1 * (p 2 - p 0) + q 2 * (p 3 - p 0)) := by
        rw [← mulVec_jac]
        simp [hT]
      rw [this, ofPt_toPt]
      ext <;> simp [Fin.sum_univ_four] <;> ring
    have n0 : ∀ i, 0 ≤ ![1 - q 0 - q 1 - q 2, q 0, q 1, q 2] i := by
      intro i
      fin_cases i
      · show 0 ≤ 1 - q 0 - q 1 - q 2
        linarith [hq.2]
      · exact hq.1.1
      · exact hq.1.2.1
      · exact hq.1.2.2
    have n1 : ∑ i, ![1 - q 0 - q 1 - q 2, q 0, q 1, q 2] i = 1 := by
      simp [Fin.sum_univ_four]
      ring
    rw [e1, hf _ n0 n1]
    simp [Fin.sum_univ_four]
    ring
  unfold tetIntegral
  rw [himg, key, hdet, setIntegral_congr_fun (g := fun q => |detJ p| • (v 0 * 1 + (q 0 * (v 1 - v 0) + q 1 * (v 2 - v 0) + q 2 * (v 3 - v 0))))
    (refSet_closed 3).measurableSet (fun q hq => by
      show |detJ p| • _ = _
      rw [hval q hq, mul_one])]
  obtain ⟨c0, c1, c2⟩ := ref_coord3
  have i0 : ∫ _ in refSet 3, v 0 * 1 = v 0 * (1 / 6) := by rw [integral_const_mul, ref_one3]
  rw [integral_smul, integral_add (ref_cont3 (by fun_prop)) (ref_cont3 (by fun_prop)),
    integral_add (ref_cont3 (by fun_prop)) (ref_cont3 (by fun_prop)), integral_add (ref_cont3 (by fun_prop)) (ref_cont3 (by fun_prop)),
    i0, integral_mul_const (v 1 - v 0), integral_mul_const (v 2 - v 0), integral_mul_const (v 3 - v 0), c0, c1, c2, tetVolume_eq,
    smul_eq_mul]
  ring

end Verif.Continuum
