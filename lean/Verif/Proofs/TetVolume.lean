import Mathlib.MeasureTheory.Measure.Lebesgue.EqHaar
import Mathlib.MeasureTheory.Measure.Lebesgue.Integral
import Mathlib.Analysis.SpecialFunctions.Integrals.Basic
import Verif.Proofs.Tetra
import Verif.Spec.Continuum

/-!
# The Lebesgue volume of a tetrahedron
-/

namespace Verif.Continuum

open MeasureTheory ENNReal Pointwise

/-- the reference simplex of dimension `n` -/
def refSet (n : ℕ) : Set (Fin n → ℝ) := {q | (∀ i, 0 ≤ q i) ∧ ∑ i, q i ≤ 1}

theorem refSet_closed (n : ℕ) : IsClosed (refSet n) := by
  have : refSet n = (⋂ i, {q | 0 ≤ q i}) ∩ {q | ∑ i, q i ≤ 1} := by
    ext q
    simp [refSet]
  rw [this]
  exact (isClosed_iInter fun i => isClosed_le continuous_const (continuous_apply i)).inter
    (isClosed_le (by fun_prop) continuous_const)

theorem section_ref (n : ℕ) {u : ℝ} (h0 : 0 ≤ u) (h1 : u < 1) :
    {y : Fin n → ℝ | Fin.cons u y ∈ refSet (n + 1)} = (1 - u) • refSet n := by
  have h : 0 < 1 - u := by linarith
  ext y
  rw [Set.mem_smul_set_iff_inv_smul_mem₀ h.ne']
  simp only [refSet, Set.mem_ofPred_eq, Fin.forall_fin_succ, Fin.cons_zero, Fin.cons_succ, Fin.sum_univ_succ,
    Pi.smul_apply, smul_eq_mul, ← Finset.mul_sum, h0, true_and]
  rw [inv_mul_le_iff₀ h, mul_one]
  constructor
  · rintro ⟨a, b⟩
    exact ⟨fun i => mul_nonneg (inv_nonneg.mpr h.le) (a i), by linarith⟩
  · rintro ⟨a, b⟩
    exact ⟨fun i => nonneg_of_mul_nonneg_right (a i) (inv_pos.mpr h), by linarith⟩

theorem section_ref_empty (n : ℕ) {u : ℝ} (h : ¬ (0 ≤ u ∧ u ≤ 1)) :
    {y : Fin n → ℝ | Fin.cons u y ∈ refSet (n + 1)} = ∅ := by
  rw [Set.eq_empty_iff_forall_notMem]
  rintro y ⟨a, b⟩
  apply h
  refine ⟨by simpa using a 0, ?_⟩
  rw [Fin.sum_univ_succ] at b
  simp only [Fin.cons_zero, Fin.cons_succ] at b
  have : 0 ≤ ∑ i, y i := Finset.sum_nonneg fun i _ => by simpa using a i.succ
  linarith

theorem volume_refSet (n : ℕ) : volume (refSet n) = ENNReal.ofReal (1 / n.factorial) := by
  induction n with
  | zero =>
    have : refSet 0 = Set.univ := by
      ext q
      simp [refSet]
    rw [this]
    simp [volume_pi]
  | succ n ih =>
    have hm : MeasurableSet (refSet (n + 1)) := (refSet_closed _).measurableSet
    have hp := volume_preserving_piFinSuccAbove (fun _ : Fin (n + 1) => ℝ) 0
    have e : volume (refSet (n + 1)) = volume ((MeasurableEquiv.piFinSuccAbove (fun _ : Fin (n + 1) => ℝ) 0).symm
        ⁻¹' refSet (n + 1)) := by
      rw [hp.symm.measure_preimage hm.nullMeasurableSet]
    rw [e, Measure.volume_eq_prod, Measure.prod_apply ((MeasurableEquiv.measurable _) hm)]
    have hs : ∀ u : ℝ, volume (Prod.mk u ⁻¹' ((MeasurableEquiv.piFinSuccAbove (fun _ : Fin (n + 1) => ℝ) 0).symm
        ⁻¹' refSet (n + 1))) = volume {y : Fin n → ℝ | Fin.cons u y ∈ refSet (n + 1)} := by
      intro u
      congr 1
      ext y
      simp only [Set.mem_preimage, Set.mem_ofPred_eq]
      have : (MeasurableEquiv.piFinSuccAbove (fun _ : Fin (n + 1) => ℝ) 0).symm (u, y) = Fin.cons u y := by
        ext i
        refine Fin.cases ?_ (fun j => ?_) i <;> simp [MeasurableEquiv.piFinSuccAbove, Fin.insertNthEquiv]
      rw [this]
    simp only [hs]
    have hae : (fun u : ℝ => volume {y : Fin n → ℝ | Fin.cons u y ∈ refSet (n + 1)}) =ᵐ[volume]
        (Set.Icc (0 : ℝ) 1).indicator fun u => ENNReal.ofReal ((1 - u) ^ n * (1 / n.factorial)) := by
      have : ∀ᵐ u : ℝ, u ≠ 1 := by
        simp [ae_iff]
      filter_upwards [this] with u hu
      by_cases h : 0 ≤ u ∧ u ≤ 1
      · rw [Set.indicator_of_mem (by exact h), section_ref n h.1 (lt_of_le_of_ne h.2 hu), Measure.addHaar_smul, ih,
          ← ENNReal.ofReal_mul (abs_nonneg _), abs_of_nonneg (pow_nonneg (by linarith) _)]
        simp
      · rw [Set.indicator_of_notMem (by exact h), section_ref_empty n h, measure_empty]
    rw [lintegral_congr_ae hae, lintegral_indicator measurableSet_Icc,
      ← ofReal_integral_eq_lintegral_ofReal]
    · congr 1
      rw [integral_Icc_eq_integral_Ioc, ← intervalIntegral.integral_of_le zero_le_one,
        intervalIntegral.integral_mul_const, intervalIntegral.integral_comp_sub_left (fun x => x ^ n) 1]
      simp [Nat.factorial_succ]
      field_simp
    · exact (Continuous.integrableOn_Icc (by fun_prop))
    · filter_upwards [ae_restrict_mem measurableSet_Icc] with u hu
      have : 0 ≤ 1 - u := by linarith [hu.2]
      positivity

/-- coordinates of a point -/
def toPt (a : V3) : Pt := ![a.x, a.y, a.z]

theorem toPt_ofPt (x : Pt) : toPt (ofPt x) = x := by
  ext i
  fin_cases i <;> rfl

theorem ofPt_toPt (a : V3) : ofPt (toPt a) = a := rfl

theorem mulVec_jac (p : Fin 4 → V3) (q : Pt) :
    toPt (p 0) + (Tetra.jac p).mulVec q = toPt (p 0 + q 0 * (p 1 - p 0) + q 1 * (p 2 - p 0) + q 2 * (p 3 - p 0)) := by
  ext i
  fin_cases i <;> simp [toPt, Tetra.jac, dotProduct, Fin.sum_univ_three] <;> ring

theorem tetSet_image (p : Fin 4 → V3) :
    tetSet p = (fun x => toPt (p 0) + x) '' (Matrix.toLin' (Tetra.jac p) '' refSet 3) := by
  ext x
  simp only [tetSet, InTet, Set.mem_ofPred_eq, Set.mem_image, exists_exists_and_eq_and, Matrix.toLin'_apply, mulVec_jac]
  constructor
  · rintro ⟨l, h0, h1, h⟩
    rw [Fin.sum_univ_four] at h1
    refine ⟨![l 1, l 2, l 3], ⟨fun i => ?_, ?_⟩, ?_⟩
    · fin_cases i
      · exact h0 1
      · exact h0 2
      · exact h0 3
    · simp [Fin.sum_univ_three]
      linarith [h0 0]
    · rw [← toPt_ofPt x, h]
      congr 1
      have e : l 0 = 1 - l 1 - l 2 - l 3 := by linarith
      ext <;> simp [Fin.sum_univ_four, e] <;> ring
  · rintro ⟨q, ⟨h0, h1⟩, rfl⟩
    rw [Fin.sum_univ_three] at h1
    refine ⟨![1 - q 0 - q 1 - q 2, q 0, q 1, q 2], fun i => ?_, ?_, ?_⟩
    · fin_cases i
      · show 0 ≤ 1 - q 0 - q 1 - q 2
        linarith
      · exact h0 0
      · exact h0 1
      · exact h0 2
    · simp [Fin.sum_univ_four]
      ring
    · rw [ofPt_toPt]
      ext <;> simp [Fin.sum_univ_four] <;> ring

theorem volume_tetSet (p : Fin 4 → V3) : volume (tetSet p) = ENNReal.ofReal (|Tetra.detJ p| / 6) := by
  rw [tetSet_image, Set.image_add_left, measure_preimage_add, Measure.addHaar_image_linearMap, volume_refSet,
    LinearMap.det_toLin', ← ENNReal.ofReal_mul (abs_nonneg _)]
  congr 1
  show |Tetra.detJ p| * _ = _
  norm_num [Nat.factorial]
  ring

theorem tetVolume_eq (p : Fin 4 → V3) : tetVolume p = |Tetra.detJ p| / 6 := by
  rw [tetVolume, Measure.real, volume_tetSet, ENNReal.toReal_ofReal (by positivity)]

theorem isCompact_refSet (n : ℕ) : IsCompact (refSet n) := by
  refine Metric.isCompact_of_isClosed_isBounded (refSet_closed n) ?_
  refine (Metric.isBounded_Icc (0 : Fin n → ℝ) 1).subset ?_
  rintro q ⟨h0, h1⟩
  exact ⟨h0, fun i => (Finset.single_le_sum (fun j _ => h0 j) (Finset.mem_univ i)).trans h1⟩

theorem isCompact_tetSet (p : Fin 4 → V3) : IsCompact (tetSet p) := by
  rw [tetSet_image]
  exact ((isCompact_refSet 3).image (LinearMap.continuous_of_finiteDimensional _)).image (by fun_prop)

/-- an integral over a tetrahedron on which the integrand stays within `e` of `c` -/
theorem tetIntegral_near (p : Fin 4 → V3) (f : V3 → ℝ) (c e : ℝ)
    (hf : IntegrableOn (fun x => f (ofPt x)) (tetSet p)) (h : ∀ x, InTet p x → |f x - c| ≤ e) :
    |tetIntegral p f - tetVolume p * c| ≤ tetVolume p * e := by
  have hv : volume (tetSet p) < ⊤ := by
    rw [volume_tetSet]
    exact ENNReal.ofReal_lt_top
  have e1 : tetIntegral p f - tetVolume p * c = ∫ x in tetSet p, (f (ofPt x) - c) := by
    rw [integral_sub hf (integrableOn_const hv.ne), setIntegral_const]
    rfl
  rw [e1, mul_comm]
  exact norm_setIntegral_le_of_norm_le_const (f := fun x => f (ofPt x) - c) hv fun x hx => h _ hx

end Verif.Continuum
