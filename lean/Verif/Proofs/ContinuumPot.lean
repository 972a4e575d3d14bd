import Mathlib.MeasureTheory.Measure.Lebesgue.EqHaar
import Verif.Proofs.ContinuumLlg
import Verif.Proofs.Electro
import Verif.Spec.ContinuumPot

/-!
# Integrals of affine functions over triangles, and of squares over tetrahedrons
-/

namespace Verif.Continuum

open MeasureTheory Verif.Tetra Verif.Rounded

/-! ### triangles -/

theorem ref_affine (M : Matrix (Fin 2) (Fin 2) ℝ) (hM : |M.det| = 1) (c : Fin 2 → ℝ) (h : ∀ q, c + M.mulVec q ∈ refSet 2 ↔ q ∈ refSet 2)
    (f : (Fin 2 → ℝ) → ℝ) : ∫ q in refSet 2, f (c + M.mulVec q) = ∫ q in refSet 2, f q := by
  have h0 : M.det ≠ 0 := by
    intro h0
    rw [h0, abs_zero] at hM
    exact zero_ne_one hM
  have mp : MeasurePreserving (fun q : Fin 2 → ℝ => c + M.mulVec q) volume volume := by
    have h1 : MeasurePreserving (Matrix.toLin' M) (volume : Measure (Fin 2 → ℝ)) volume := by
      refine ⟨(LinearMap.continuous_of_finiteDimensional _).measurable, ?_⟩
      rw [Real.map_matrix_volume_pi_eq_smul_volume_pi h0, abs_inv, hM]
      simp
    exact (measurePreserving_add_left volume c).comp h1
  have emb : MeasurableEmbedding (fun q : Fin 2 → ℝ => c + M.mulVec q) := by
    have hi : Function.Injective (Matrix.toLin' M) := by
      have := Matrix.mulVec_injective_iff_isUnit.mpr ((Matrix.isUnit_iff_isUnit_det M).mpr (isUnit_iff_ne_zero.mpr h0))
      intro a b hab
      exact this (by simpa using hab)
    have h1 : MeasurableEmbedding (Matrix.toLin' M) :=
      ((LinearMap.continuous_of_finiteDimensional _).measurableEmbedding hi)
    exact (measurableEmbedding_addLeft c).comp h1
  have := mp.setIntegral_preimage_emb emb f (refSet 2)
  have e : (fun q : Fin 2 → ℝ => c + M.mulVec q) ⁻¹' refSet 2 = refSet 2 := Set.ext fun q => h q
  rw [e] at this
  exact this

theorem mem_ref2 (q : Fin 2 → ℝ) : q ∈ refSet 2 ↔ 0 ≤ q 0 ∧ 0 ≤ q 1 ∧ q 0 + q 1 ≤ 1 := by
  unfold refSet
  rw [Set.mem_ofPred_eq, Fin.sum_univ_two, Fin.forall_fin_two, and_assoc]

theorem ref_cont {f : (Fin 2 → ℝ) → ℝ} (hf : Continuous f) : IntegrableOn f (refSet 2) :=
  hf.continuousOn.integrableOn_compact (isCompact_refSet 2)

theorem ref_one : ∫ _ in refSet 2, (1 : ℝ) = 1 / 2 := by
  rw [setIntegral_const, Measure.real, volume_refSet, ENNReal.toReal_ofReal (by positivity)]
  norm_num

theorem ref_coord : (∫ q in refSet 2, q 0 = 1 / 6) ∧ ∫ q in refSet 2, q 1 = 1 / 6 := by
  have h1 := ref_affine !![0, 1; 1, 0] (by simp [Matrix.det_fin_two]) 0 (fun q => by
    rw [mem_ref2, mem_ref2]
    simp [Matrix.mulVec, dotProduct, Fin.sum_univ_two]
    constructor
    · rintro ⟨a, b, c⟩
      exact ⟨b, a, by linarith⟩
    · rintro ⟨a, b, c⟩
      exact ⟨b, a, by linarith⟩) (fun q => q 0)
  have h2 := ref_affine !![-1, -1; 0, 1] (by simp [Matrix.det_fin_two]) ![1, 0] (fun q => by
    rw [mem_ref2, mem_ref2]
    simp [Matrix.mulVec, dotProduct, Fin.sum_univ_two]
    constructor
    · rintro ⟨a, b, c⟩
      exact ⟨by linarith, b, by linarith⟩
    · rintro ⟨a, b, c⟩
      exact ⟨by linarith, b, by linarith⟩) (fun q => q 0)
  simp [Matrix.mulVec, dotProduct, Fin.sum_univ_two] at h1 h2
  have e : ∀ q : Fin 2 → ℝ, 1 + (-q 0 + -q 1) = 1 - (q 0 + q 1) := fun q => by ring
  simp only [e] at h2
  rw [integral_sub (ref_cont continuous_const) (ref_cont (by fun_prop)), integral_add (ref_cont (by fun_prop)) (ref_cont (by fun_prop)),
    ref_one] at h2
  constructor <;> linarith

theorem triAffine_eq (p : Fin 3 → V3) (w : Fin 3 → ℝ) : triAffine p w = triArea p * ((w 0 + w 1 + w 2) / 3) := by
  have h := ref_coord
  have e : ∫ q in refSet 2, (w 0 + q 0 * (w 1 - w 0) + q 1 * (w 2 - w 0)) = (w 0 + w 1 + w 2) / 6 := by
    rw [integral_add (ref_cont (by fun_prop)) (ref_cont (by fun_prop)), integral_add (ref_cont (by fun_prop)) (ref_cont (by fun_prop)),
      integral_mul_const, integral_mul_const, h.1, h.2]
    have : ∫ _ in refSet 2, w 0 = w 0 * ∫ _ in refSet 2, (1 : ℝ) := by
      rw [← integral_const_mul]
      simp
    rw [this, ref_one]
    ring
  unfold triAffine
  unfold refSet at e
  rw [e]
  ring

/-! ### tetrahedrons -/

theorem tetIntegral_const (p : Fin 4 → V3) (c : ℝ) : tetIntegral p (fun _ => c) = tetVolume p * c := by
  rw [tetIntegral, setIntegral_const]
  rfl

theorem tetVolume_nonneg (p : Fin 4 → V3) : 0 ≤ tetVolume p := by
  rw [tetVolume_eq]
  positivity

theorem dot_lip {B : V3 → Prop} {g : V3 → V3} {P N : ℝ} (hg : Gentle B g P N) (c : V3) {x y : V3} (hx : B x) (hy : B y) :
    |(g y).dot c - (g x).dot c| ≤ N * c.norm * (y - x).norm := by
  have e : (g y).dot c - (g x).dot c = (g y - g x).dot c := by
    simp only [V3.dot, V3.sub_x, V3.sub_y, V3.sub_z]
    ring
  rw [e]
  refine (Rounded.abs_dot_le _ _).trans ?_
  have := mul_le_mul_of_nonneg_right (hg.lip x y hx hy) (norm_nonneg c)
  linarith

theorem sq_lip {B : V3 → Prop} {g : V3 → V3} {P N : ℝ} (hg : Gentle B g P N) (c : V3) {x y : V3} (hx : B x) (hy : B y) :
    |(g y - c).norm ^ 2 - (g x - c).norm ^ 2| ≤ 2 * (P + c.norm) * N * (y - x).norm := by
  have e : (g y - c).norm ^ 2 - (g x - c).norm ^ 2 = (g y - g x).dot ((g y - c) + (g x - c)) := by
    rw [norm_sq, norm_sq]
    simp only [V3.nsq, V3.dot, V3.sub_x, V3.sub_y, V3.sub_z, V3.add_x, V3.add_y, V3.add_z]
    ring
  rw [e]
  refine (Rounded.abs_dot_le _ _).trans ?_
  have h1 := norm_add_le' (g y - c) (g x - c)
  have h2 := norm_sub_le' (g y) c
  have h3 := norm_sub_le' (g x) c
  have h4 := hg.bound x hx
  have h5 := hg.bound y hy
  have h6 : ((g y - c) + (g x - c)).norm ≤ 2 * (P + c.norm) := by linarith
  have h7 := hg.lip x y hx hy
  have := mul_le_mul h7 h6 (norm_nonneg _) ((norm_nonneg _).trans h7)
  linarith

/-- the parallelogram identity on one element -/
theorem tet_square {p : Fin 4 → V3} {g : V3 → V3} {P N : ℝ} (hg : Gentle (InTet p) g P N) (a b : V3) :
    tetIntegral p (fun x => (g x - a).norm ^ 2) = tetIntegral p (fun x => (g x - b).norm ^ 2) + tetVolume p * (b - a).norm ^ 2
      + 2 * (tetIntegral p (fun x => (g x).dot (b - a)) - tetVolume p * b.dot (b - a)) := by
  have i1 : IntegrableOn (fun x => (g (ofPt x) - b).norm ^ 2) (tetSet p) := integrable_of_lip fun x y hx hy => sq_lip hg b hx hy
  have i2 : IntegrableOn (fun x => (g (ofPt x)).dot (b - a)) (tetSet p) := integrable_of_lip fun x y hx hy => dot_lip hg _ hx hy
  have hv : volume (tetSet p) ≠ ⊤ := by
    rw [volume_tetSet]
    exact ENNReal.ofReal_ne_top
  have e : ∀ x, (g x - a).norm ^ 2 = (g x - b).norm ^ 2 + ((b - a).norm ^ 2 - 2 * b.dot (b - a)) + 2 * (g x).dot (b - a) := by
    intro x
    rw [norm_sq, norm_sq, norm_sq]
    simp only [V3.nsq, V3.dot, V3.sub_x, V3.sub_y, V3.sub_z]
    ring
  have : tetIntegral p (fun x => (g x - a).norm ^ 2) = tetIntegral p (fun x => (g x - b).norm ^ 2)
      + tetVolume p * ((b - a).norm ^ 2 - 2 * b.dot (b - a)) + 2 * tetIntegral p (fun x => (g x).dot (b - a)) := by
    simp only [e]
    rw [← tetIntegral_const]
    unfold tetIntegral
    dsimp only
    have i3 : IntegrableOn (fun x => (g (ofPt x) - b).norm ^ 2 + ((b - a).norm ^ 2 - 2 * b.dot (b - a))) (tetSet p) :=
      i1.add (integrableOn_const hv)
    rw [integral_add i3 (i2.const_mul 2), integral_add i1 (integrableOn_const hv), integral_const_mul]
  rw [this]
  ring

/-- integrals of functions below a bound -/
theorem tetIntegral_le {p : Fin 4 → V3} {f : V3 → ℝ} {c : ℝ} (hf : IntegrableOn (fun x => f (ofPt x)) (tetSet p))
    (h : ∀ x, InTet p x → f x ≤ c) : tetIntegral p f ≤ tetVolume p * c := by
  have hv : volume (tetSet p) ≠ ⊤ := by
    rw [volume_tetSet]
    exact ENNReal.ofReal_ne_top
  rw [← tetIntegral_const]
  exact setIntegral_mono_on hf (integrableOn_const hv) (isCompact_tetSet p).isClosed.measurableSet fun x hx => h _ hx

/-- power on one element -/
theorem tet_power {p : Fin 4 → V3} {g : V3 → V3} {P N : ℝ} (hg : Gentle (InTet p) g P N) (a : V3) {h : ℝ} (hh : 0 < h) :
    |tetIntegral p (fun x => (g x).norm ^ 2) - tetVolume p * a.norm ^ 2| ≤
      (1 + P / h) * tetIntegral p (fun x => (g x - a).norm ^ 2) + tetVolume p * (P * h) := by
  have hP : 0 ≤ P := (norm_nonneg _).trans (hg.bound _ (inTet_vertex p 0))
  have z : ∀ x, g x - 0 = g x := fun x => by ext <;> simp
  have i0 : IntegrableOn (fun x => (g (ofPt x)).norm ^ 2) (tetSet p) := by
    have : IntegrableOn (fun x => (g (ofPt x) - 0).norm ^ 2) (tetSet p) := integrable_of_lip fun x y hx hy => sq_lip hg 0 hx hy
    simpa only [z] using this
  have i1 : IntegrableOn (fun x => (g (ofPt x) - a).norm ^ 2) (tetSet p) := integrable_of_lip fun x y hx hy => sq_lip hg a hx hy
  have hv : volume (tetSet p) ≠ ⊤ := by
    rw [volume_tetSet]
    exact ENNReal.ofReal_ne_top
  have key : ∀ x, InTet p x → |(g x).norm ^ 2 - a.norm ^ 2| ≤ (1 + P / h) * (g x - a).norm ^ 2 + P * h := by
    intro x hx
    have e : (g x).norm ^ 2 - a.norm ^ 2 = 2 * (g x).dot (g x - a) - (g x - a).norm ^ 2 := by
      rw [norm_sq, norm_sq, norm_sq]
      simp only [V3.nsq, V3.dot, V3.sub_x, V3.sub_y, V3.sub_z]
      ring
    have h1 := Rounded.abs_dot_le (g x) (g x - a)
    have h2 := mul_le_mul_of_nonneg_right (hg.bound x hx) (norm_nonneg (g x - a))
    have h3 : 2 * (g x - a).norm ≤ (g x - a).norm ^ 2 / h + h := by
      rw [← sub_nonneg]
      have : (g x - a).norm ^ 2 / h + h - 2 * (g x - a).norm = ((g x - a).norm - h) ^ 2 / h := by
        field_simp
        ring
      rw [this]
      positivity
    have h4 := mul_le_mul_of_nonneg_left h3 hP
    have h5 : P * ((g x - a).norm ^ 2 / h + h) = P / h * (g x - a).norm ^ 2 + P * h := by ring
    rw [e]
    refine (abs_sub _ _).trans ?_
    rw [abs_mul, abs_of_pos (two_pos : (0 : ℝ) < 2), abs_of_nonneg (sq_nonneg (g x - a).norm)]
    linarith
  have e : tetIntegral p (fun x => (g x).norm ^ 2) - tetVolume p * a.norm ^ 2 = ∫ x in tetSet p, ((g (ofPt x)).norm ^ 2 - a.norm ^ 2) := by
    rw [integral_sub i0 (integrableOn_const hv), ← tetIntegral_const]
    rfl
  have e2 : (1 + P / h) * tetIntegral p (fun x => (g x - a).norm ^ 2) + tetVolume p * (P * h) =
      ∫ x in tetSet p, ((1 + P / h) * (g (ofPt x) - a).norm ^ 2 + P * h) := by
    rw [integral_add (i1.const_mul _) (integrableOn_const hv), integral_const_mul, ← tetIntegral_const]
    rfl
  rw [e, e2]
  refine (abs_integral_le_integral_abs).trans ?_
  exact setIntegral_mono_on (i0.sub (integrableOn_const hv)).abs ((i1.const_mul _).add (integrableOn_const hv))
    (isCompact_tetSet p).isClosed.measurableSet fun x hx => key _ hx

end Verif.Continuum
