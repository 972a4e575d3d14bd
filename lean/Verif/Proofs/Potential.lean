import Mathlib.MeasureTheory.Integral.IntervalIntegral.FundThmCalculus
import Mathlib.MeasureTheory.Integral.Prod
import Mathlib.Analysis.SpecialFunctions.Integrals.Basic
import Verif.Model.TriElem
import Verif.Spec.Potential

/-! Helper lemmas on the potential of a charged triangle. -/

namespace Verif.Potential

open MeasureTheory Set

/-! ## collapsed coordinates -/

/-- the unit square is sent to the triangle; one side goes to the first vertex -/
def duffy (q : ℝ × ℝ) : ℝ × ℝ := (q.1 * (1 - q.2), q.1 * q.2)

noncomputable def duffy' (q : ℝ × ℝ) : ℝ × ℝ →L[ℝ] ℝ × ℝ :=
  (Matrix.toLin (.finTwoProd ℝ) (.finTwoProd ℝ) !![1 - q.2, -q.1; q.2, q.1]).toContinuousLinearMap

theorem hasFDerivAt_duffy (q : ℝ × ℝ) : HasFDerivAt duffy (duffy' q) q := by
  unfold duffy'
  rw [Matrix.toLin_finTwoProd_toContinuousLinearMap]
  have hf : HasFDerivAt (fun q : ℝ × ℝ => q.1) (ContinuousLinearMap.fst ℝ ℝ ℝ) q := hasFDerivAt_fst
  have hg : HasFDerivAt (fun q : ℝ × ℝ => q.2) (ContinuousLinearMap.snd ℝ ℝ ℝ) q := hasFDerivAt_snd
  have h1 := hf.mul ((hasFDerivAt_const (1 : ℝ) q).sub hg)
  have h2 := hf.mul hg
  convert! h1.prodMk h2 using 2 <;>
  simp [add_comm, smul_neg, neg_smul _ (ContinuousLinearMap.snd ℝ ℝ ℝ), sub_eq_add_neg]

theorem det_duffy' (q : ℝ × ℝ) : (duffy' q).det = q.1 := by
  unfold duffy'
  simp only [LinearMap.det_toContinuousLinearMap, LinearMap.det_toLin, Matrix.det_fin_two_of]
  ring

def square : Set (ℝ × ℝ) := Ioo (0 : ℝ) 1 ×ˢ Ioo (0 : ℝ) 1

theorem duffy_injOn : InjOn duffy square := by
  rintro ⟨a, b⟩ ⟨⟨h1, h2⟩, h3, h4⟩ ⟨c, d⟩ ⟨⟨h5, h6⟩, h7, h8⟩ h
  simp only [duffy, Prod.mk.injEq] at h h1 h2 h3 h4 h5 h6 h7 h8
  obtain ⟨e1, e2⟩ := h
  have hac : a = c := by nlinarith
  subst hac
  have : b = d := mul_left_cancel₀ (ne_of_gt h1) e2
  rw [this]

theorem duffy_image : duffy '' square = refTri := by
  ext ⟨x, y⟩
  simp only [mem_image, square, refTri, mem_ofPred_eq, mem_prod, mem_Ioo, duffy, Prod.mk.injEq, Prod.exists]
  constructor
  · rintro ⟨a, b, ⟨⟨h1, h2⟩, h3, h4⟩, rfl, rfl⟩
    refine ⟨by nlinarith, by nlinarith, by nlinarith⟩
  · rintro ⟨h1, h2, h3⟩
    refine ⟨x + y, y / (x + y), ⟨⟨by linarith, h3⟩, by positivity, ?_⟩, ?_, ?_⟩
    · rw [div_lt_one (by linarith)]; linarith
    · have : x + y ≠ 0 := by linarith
      field_simp
      ring
    · have : x + y ≠ 0 := by linarith
      field_simp

theorem measurableSet_square : MeasurableSet square := measurableSet_Ioo.prod measurableSet_Ioo

theorem integral_refTri (g : ℝ × ℝ → ℝ) : ∫ q in refTri, g q = ∫ q in square, q.1 * g (duffy q) := by
  rw [← duffy_image, integral_image_eq_integral_abs_det_fderiv_smul volume measurableSet_square
    (fun q _ => (hasFDerivAt_duffy q).hasFDerivWithinAt) duffy_injOn]
  apply setIntegral_congr_fun measurableSet_square
  rintro q ⟨⟨h1, _⟩, _⟩
  simp only [det_duffy', smul_eq_mul, abs_of_pos h1]

theorem integrableOn_refTri (g : ℝ × ℝ → ℝ) :
    IntegrableOn g refTri ↔ IntegrableOn (fun q : ℝ × ℝ => q.1 * g (duffy q)) square := by
  rw [← duffy_image, integrableOn_image_iff_integrableOn_abs_det_fderiv_smul volume measurableSet_square
    (fun q _ => (hasFDerivAt_duffy q).hasFDerivWithinAt) duffy_injOn]
  apply integrableOn_congr_fun _ measurableSet_square
  rintro q ⟨⟨h1, _⟩, _⟩
  simp only [det_duffy', smul_eq_mul, abs_of_pos h1]

/-! ## the integral along the opposite side -/

section line
variable (b c : ℝ)

noncomputable def Q (τ : ℝ) : ℝ := (b + c * τ) * (b + c * τ) + τ * τ

theorem Q_pos (hb : 0 < b) (τ : ℝ) : 0 < Q b c τ := by
  unfold Q
  by_cases h : τ = 0
  · subst h; nlinarith
  · have : 0 < τ * τ := mul_self_pos.mpr h
    nlinarith [mul_self_nonneg (b + c * τ)]

/-- argument of the logarithm -/
noncomputable def arg (τ : ℝ) : ℝ := Real.sqrt (1 + c * c) * Real.sqrt (Q b c τ) + ((1 + c * c) * τ + b * c)

theorem arg_pos (hb : 0 < b) (τ : ℝ) : 0 < arg b c τ := by
  have h1 : 0 ≤ 1 + c * c := by nlinarith [mul_self_nonneg c]
  have h2 : |(1 + c * c) * τ + b * c| < Real.sqrt ((1 + c * c) * Q b c τ) := by
    apply Real.lt_sqrt_of_sq_lt
    rw [sq_abs]
    unfold Q
    nlinarith [mul_pos hb hb]
  rw [Real.sqrt_mul h1] at h2
  have := neg_abs_le ((1 + c * c) * τ + b * c)
  unfold arg
  linarith

theorem hasDerivAt_sqrtQ (hb : 0 < b) (τ : ℝ) :
    HasDerivAt (fun τ => Real.sqrt (Q b c τ)) (((1 + c * c) * τ + b * c) / Real.sqrt (Q b c τ)) τ := by
  have h : HasDerivAt (fun τ => Q b c τ) (2 * ((1 + c * c) * τ + b * c)) τ := by
    have h0 : HasDerivAt (fun τ : ℝ => b + c * τ) c τ := by
      simpa using ((hasDerivAt_id τ).const_mul c).const_add b
    have := (h0.mul h0).add ((hasDerivAt_id τ).mul (hasDerivAt_id τ))
    convert! this using 1
    simp only [id]
    ring
  convert! h.sqrt (Q_pos b c hb τ).ne' using 1
  have : Real.sqrt (Q b c τ) ≠ 0 := (Real.sqrt_pos.mpr (Q_pos b c hb τ)).ne'
  field_simp

theorem hasDerivAt_log (hb : 0 < b) (τ : ℝ) :
    HasDerivAt (fun τ => Real.log (arg b c τ) / Real.sqrt (1 + c * c)) (1 / Real.sqrt (Q b c τ)) τ := by
  have hc : 0 < 1 + c * c := by nlinarith [mul_self_nonneg c]
  have hs : 0 < Real.sqrt (1 + c * c) := Real.sqrt_pos.mpr hc
  have hq : 0 < Real.sqrt (Q b c τ) := Real.sqrt_pos.mpr (Q_pos b c hb τ)
  have hlin : HasDerivAt (fun τ : ℝ => (1 + c * c) * τ + b * c) (1 + c * c) τ := by
    simpa using ((hasDerivAt_id τ).const_mul (1 + c * c)).add_const (b * c)
  have h := (((hasDerivAt_sqrtQ b c hb τ).const_mul (Real.sqrt (1 + c * c))).add hlin).log (arg_pos b c hb τ).ne'
  convert! h.div_const (Real.sqrt (1 + c * c)) using 1
  have ha : 0 < Real.sqrt (1 + c * c) * Real.sqrt (Q b c τ) + ((1 + c * c) * τ + b * c) := arg_pos b c hb τ
  have e : Real.sqrt (1 + c * c) * Real.sqrt (1 + c * c) = 1 + c * c := Real.mul_self_sqrt hc.le
  simp only [Pi.add_apply]
  rw [eq_comm, div_div, div_eq_div_iff (by positivity) hq.ne', one_mul]
  generalize hS : Real.sqrt (1 + c * c) = S at *
  generalize Real.sqrt (Q b c τ) = R at *
  rw [← e]
  field_simp
  ring

theorem continuous_sqrtQ (h : ℝ) : Continuous fun t : ℝ => Real.sqrt (Q b c (h * t)) := by
  unfold Q
  fun_prop

/-- value of the primitive of `1 / sqrt Q` -/
noncomputable def L (τ : ℝ) : ℝ := Real.log (arg b c τ) / Real.sqrt (1 + c * c)

theorem integral_line (hb : 0 < b) {h : ℝ} (hh : 0 < h) (α β : ℝ) :
    ∫ t in (0 : ℝ)..1, (α + β * t) / Real.sqrt (Q b c (h * t)) =
      α * ((L b c h - L b c 0) / h)
      + β * ((Real.sqrt (Q b c h) - Real.sqrt (Q b c 0) - b * c * (L b c h - L b c 0)) / ((1 + c * c) * (h * h))) := by
  have hc : 0 < 1 + c * c := by nlinarith [mul_self_nonneg c]
  have key : ∀ t ∈ uIcc (0 : ℝ) 1, HasDerivAt
      (fun t => α * (L b c (h * t) / h)
        + β * ((Real.sqrt (Q b c (h * t)) - b * c * L b c (h * t)) / ((1 + c * c) * (h * h))))
      ((α + β * t) / Real.sqrt (Q b c (h * t))) t := by
    intro t _
    have hm : HasDerivAt (fun t : ℝ => h * t) h t := by simpa using (hasDerivAt_id t).const_mul h
    have h1 : HasDerivAt (fun t => L b c (h * t)) (1 / Real.sqrt (Q b c (h * t)) * h) t :=
      (hasDerivAt_log b c hb (h * t)).comp t hm
    have h2 : HasDerivAt (fun t => Real.sqrt (Q b c (h * t)))
        (((1 + c * c) * (h * t) + b * c) / Real.sqrt (Q b c (h * t)) * h) t :=
      (hasDerivAt_sqrtQ b c hb (h * t)).comp t hm
    have h3 := ((h1.div_const h).const_mul α).add
      (((h2.sub (h1.const_mul (b * c))).div_const ((1 + c * c) * (h * h))).const_mul β)
    convert! h3 using 1
    have : 0 < Real.sqrt (Q b c (h * t)) := Real.sqrt_pos.mpr (Q_pos b c hb _)
    field_simp
    ring
  rw [intervalIntegral.integral_eq_sub_of_hasDerivAt key]
  · simp only [mul_one, mul_zero]
    ring
  · apply Continuous.intervalIntegrable
    apply Continuous.div (by fun_prop) (continuous_sqrtQ b c h)
    intro t
    exact (Real.sqrt_pos.mpr (Q_pos b c hb _)).ne'

/-! ## the integral over the square -/

/-- the integrand in collapsed coordinates, without the area -/
noncomputable def collapsed (h s1 s2 s3 : ℝ) (q : ℝ × ℝ) : ℝ :=
  ((1 - q.1) * s1 + q.1 * ((1 - q.2) * s2 + q.2 * s3)) / Real.sqrt (Q b c (h * q.2))

theorem continuous_collapsed (hb : 0 < b) (h s1 s2 s3 : ℝ) : Continuous (collapsed b c h s1 s2 s3) := by
  unfold collapsed
  apply Continuous.div (by fun_prop) ((continuous_sqrtQ b c h).comp continuous_snd)
  intro q
  exact (Real.sqrt_pos.mpr (Q_pos b c hb _)).ne'

theorem integrableOn_collapsed (hb : 0 < b) (h s1 s2 s3 : ℝ) : IntegrableOn (collapsed b c h s1 s2 s3) square := by
  have hk : IsCompact (Icc (0 : ℝ) 1 ×ˢ Icc (0 : ℝ) 1) := isCompact_Icc.prod isCompact_Icc
  exact ((continuous_collapsed b c hb h s1 s2 s3).continuousOn.integrableOn_compact hk).mono_set
    (prod_mono Ioo_subset_Icc_self Ioo_subset_Icc_self)

theorem integral_Ioo (f : ℝ → ℝ) : ∫ x in Ioo (0 : ℝ) 1, f x = ∫ x in (0 : ℝ)..1, f x := by
  rw [intervalIntegral.integral_of_le zero_le_one, integral_Ioc_eq_integral_Ioo]

theorem integral_collapsed (hb : 0 < b) {h : ℝ} (hh : 0 < h) (s1 s2 s3 : ℝ) :
    ∫ q in square, collapsed b c h s1 s2 s3 q =
      1 / 2 * ((s1 + s2) * ((L b c h - L b c 0) / h)
      + (s3 - s2) * ((Real.sqrt (Q b c h) - Real.sqrt (Q b c 0) - b * c * (L b c h - L b c 0))
        / ((1 + c * c) * (h * h)))) := by
  have hi := integrableOn_collapsed b c hb h s1 s2 s3
  have e : ∫ q in square, collapsed b c h s1 s2 s3 q
      = ∫ x in Ioo (0 : ℝ) 1, ∫ y in Ioo (0 : ℝ) 1, collapsed b c h s1 s2 s3 (x, y) := by
    exact setIntegral_prod _ hi
  rw [e, integral_Ioo]
  set A := (L b c h - L b c 0) / h
  set B := (Real.sqrt (Q b c h) - Real.sqrt (Q b c 0) - b * c * (L b c h - L b c 0)) / ((1 + c * c) * (h * h))
  have e2 : ∀ x : ℝ, ∫ y in Ioo (0 : ℝ) 1, collapsed b c h s1 s2 s3 (x, y)
      = ((1 - x) * s1 + x * s2) * A + (x * (s3 - s2)) * B := by
    intro x
    rw [integral_Ioo, ← integral_line b c hb hh]
    apply intervalIntegral.integral_congr
    intro t _
    simp only [collapsed]
    congr 1
    ring
  simp only [e2]
  have e3 : (fun x : ℝ => ((1 - x) * s1 + x * s2) * A + x * (s3 - s2) * B)
      = fun x : ℝ => s1 * A + x * ((s2 - s1) * A + (s3 - s2) * B) := by
    funext x; ring
  rw [e3, intervalIntegral.integral_add (by simp) (by apply Continuous.intervalIntegrable; fun_prop),
    intervalIntegral.integral_mul_const]
  simp
  ring

end line

/-! ## the triangle -/

section tri
variable (p1 p2 p3 : V3)

theorem nsq_nonneg (a : V3) : 0 ≤ a.nsq := by
  unfold V3.nsq
  nlinarith [mul_self_nonneg a.x, mul_self_nonneg a.y, mul_self_nonneg a.z]

theorem norm_sq (a : V3) : a.norm * a.norm = a.nsq := by
  unfold V3.norm
  exact Real.mul_self_sqrt (nsq_nonneg a)

theorem lagrange (a b : V3) : (a.cross b).nsq = a.nsq * b.nsq - a.dot b * a.dot b := by
  simp only [V3.nsq, V3.cross, V3.dot]
  ring

/-- a triangle with two equal vertices has no surface -/
theorem norm_pos_of_cross {a b : V3} (h : (a.cross b).norm ≠ 0) : 0 < a.norm := by
  unfold V3.norm at *
  apply Real.sqrt_pos.mpr
  rcases lt_or_eq_of_le (nsq_nonneg a) with h0 | h0
  · exact h0
  · exfalso
    apply h
    have h1 : a.x = 0 ∧ a.y = 0 ∧ a.z = 0 := by
      unfold V3.nsq at h0
      refine ⟨?_, ?_, ?_⟩ <;> nlinarith [mul_self_nonneg a.x, mul_self_nonneg a.y, mul_self_nonneg a.z]
    simp [V3.nsq, V3.cross, h1.1, h1.2.1, h1.2.2]

theorem norm_duffy {b h t : ℝ} (a d : V3) (hh : 0 < h) (ha : a.nsq = b * b) (hd : d.nsq = t * t + h * h)
    (had : a.dot d = t * b) {q : ℝ × ℝ} (hq : 0 < q.1) :
    ((duffy q).1 * a + (duffy q).2 * d).norm = q.1 * Real.sqrt (Q b ((t - b) / h) (h * q.2)) := by
  unfold V3.norm
  have e : ((duffy q).1 * a + (duffy q).2 * d).nsq = q.1 * q.1 * Q b ((t - b) / h) (h * q.2) := by
    have e1 : ((duffy q).1 * a + (duffy q).2 * d).nsq
        = (duffy q).1 * (duffy q).1 * a.nsq + 2 * ((duffy q).1 * (duffy q).2) * a.dot d
          + (duffy q).2 * (duffy q).2 * d.nsq := by
      simp only [V3.nsq, V3.dot, V3.add_x, V3.add_y, V3.add_z, V3.smul_x, V3.smul_y, V3.smul_z]
      ring
    rw [e1, ha, hd, had]
    simp only [duffy, Q]
    field_simp
    ring
  rw [e, Real.sqrt_mul (by positivity), Real.sqrt_mul_self hq.le]

/-- the integrand in collapsed coordinates -/
theorem integrand_duffy {b h t : ℝ} (hh : 0 < h) (ha : (p2 - p1).nsq = b * b)
    (hd : (p3 - p1).nsq = t * t + h * h) (had : (p2 - p1).dot (p3 - p1) = t * b) (s1 s2 s3 : ℝ) {q : ℝ × ℝ}
    (hq : 0 < q.1) :
    q.1 * integrand p1 p2 p3 p1 (affine s1 s2 s3) (duffy q) =
      collapsed b ((t - b) / h) h s1 s2 s3 q * areaRatio p1 p2 p3 := by
  have e : point p1 p2 p3 (duffy q) - p1 = (duffy q).1 * (p2 - p1) + (duffy q).2 * (p3 - p1) := by
    ext <;> simp [point] <;> ring
  unfold integrand
  rw [e, norm_duffy _ _ hh ha hd had hq]
  simp only [affine, collapsed, duffy]
  generalize Real.sqrt (Q b ((t - b) / h) (h * q.2)) = R
  generalize areaRatio p1 p2 p3 = S
  by_cases hR : R = 0
  · simp [hR]
  · field_simp
    ring

theorem integrable_integrand {b h t : ℝ} (hb : 0 < b) (hh : 0 < h) (ha : (p2 - p1).nsq = b * b)
    (hd : (p3 - p1).nsq = t * t + h * h) (had : (p2 - p1).dot (p3 - p1) = t * b) (s1 s2 s3 : ℝ) :
    IntegrableOn (integrand p1 p2 p3 p1 (affine s1 s2 s3)) refTri := by
  rw [integrableOn_refTri]
  have := (integrableOn_collapsed b ((t - b) / h) hb h s1 s2 s3).mul_const (areaRatio p1 p2 p3)
  refine (integrableOn_congr_fun ?_ measurableSet_square).mpr this
  rintro q ⟨⟨h1, _⟩, _⟩
  exact integrand_duffy p1 p2 p3 hh ha hd had s1 s2 s3 h1

theorem surfacePotential_eq {b h t : ℝ} (hh : 0 < h) (ha : (p2 - p1).nsq = b * b)
    (hd : (p3 - p1).nsq = t * t + h * h) (had : (p2 - p1).dot (p3 - p1) = t * b) (s1 s2 s3 : ℝ) :
    surfacePotential p1 p2 p3 p1 (affine s1 s2 s3) =
      (∫ q in square, collapsed b ((t - b) / h) h s1 s2 s3 q) * areaRatio p1 p2 p3 := by
  unfold surfacePotential
  rw [integral_refTri, ← integral_mul_const]
  apply setIntegral_congr_fun measurableSet_square
  rintro q ⟨⟨h1, _⟩, _⟩
  exact integrand_duffy p1 p2 p3 hh ha hd had s1 s2 s3 h1

/-- shape of a triangle with a surface: length of a side, abscissa and ordinate of the third vertex -/
theorem shape (hS : areaRatio p1 p2 p3 ≠ 0) :
    0 < (p2 - p1).norm ∧ 0 < areaRatio p1 p2 p3 / (p2 - p1).norm ∧
    (p2 - p1).nsq = (p2 - p1).norm * (p2 - p1).norm ∧
    (p3 - p1).nsq = ((p2 - p1).dot (p3 - p1) / (p2 - p1).norm) * ((p2 - p1).dot (p3 - p1) / (p2 - p1).norm)
      + (areaRatio p1 p2 p3 / (p2 - p1).norm) * (areaRatio p1 p2 p3 / (p2 - p1).norm) ∧
    (p2 - p1).dot (p3 - p1) = ((p2 - p1).dot (p3 - p1) / (p2 - p1).norm) * (p2 - p1).norm := by
  have hb := norm_pos_of_cross hS
  have h0 : 0 ≤ areaRatio p1 p2 p3 := Real.sqrt_nonneg _
  refine ⟨hb, div_pos (lt_of_le_of_ne h0 (Ne.symm hS)) hb, (norm_sq _).symm, ?_, by field_simp⟩
  have e : areaRatio p1 p2 p3 * areaRatio p1 p2 p3
      = (p2 - p1).nsq * (p3 - p1).nsq - (p2 - p1).dot (p3 - p1) * (p2 - p1).dot (p3 - p1) := by
    unfold areaRatio
    rw [norm_sq, lagrange]
  rw [← norm_sq (p2 - p1)] at e
  field_simp
  linarith

theorem potential_eq (hS : areaRatio p1 p2 p3 ≠ 0) (dMs s1 s2 s3 : ℝ) :
    TriElem.potential p1 p2 p3 (1 / 2 * areaRatio p1 p2 p3) dMs s1 s2 s3 =
      dMs * surfacePotential p1 p2 p3 p1 (affine s1 s2 s3) := by
  obtain ⟨hb, hh, ha, hd, had⟩ := shape p1 p2 p3 hS
  rw [surfacePotential_eq p1 p2 p3 hh ha hd had, integral_collapsed _ _ hb hh]
  unfold TriElem.potential
  dsimp only
  rw [show 2 * (1 / 2 * areaRatio p1 p2 p3) = areaRatio p1 p2 p3 by ring]
  set S := areaRatio p1 p2 p3
  set b := (p2 - p1).norm
  set t := (p2 - p1).dot (p3 - p1) / b
  have hSb : S = S / b * b := by field_simp
  set h := S / b
  set c := (t - b) / h with hc
  have ht : t = b + c * h := by rw [hc]; field_simp; ring
  have er : h * Real.sqrt (1 + t / h * (t / h)) = Real.sqrt (Q b c h) := by
    have : Q b c h = h * h * (1 + t / h * (t / h)) := by
      unfold Q; rw [← ht]; field_simp; ring
    rw [this, Real.sqrt_mul (by positivity), Real.sqrt_mul_self hh.le]
  have e0 : Real.sqrt (Q b c 0) = b := by
    have : Q b c 0 = b * b := by unfold Q; ring
    rw [this, Real.sqrt_mul_self hb.le]
  rw [er]
  have ea : c * t + h + Real.sqrt (1 + c * c) * Real.sqrt (Q b c h) = arg b c h := by
    unfold arg; rw [ht]; ring
  have eb : b * (c + Real.sqrt (1 + c * c)) = arg b c 0 := by
    unfold arg; rw [e0]; ring
  rw [ea, eb, Real.log_div (arg_pos b c hb h).ne' (arg_pos b c hb 0).ne', e0]
  have el : b * (Real.log (arg b c h) - Real.log (arg b c 0)) / Real.sqrt (1 + c * c) = b * (L b c h - L b c 0) := by
    unfold L; ring
  rw [el, hSb, ht]
  generalize L b c h - L b c 0 = X
  generalize Real.sqrt (Q b c h) = r
  have h1 : 1 + c * c ≠ 0 := by nlinarith [mul_self_nonneg c]
  have h2 := hb.ne'
  have h3 := hh.ne'
  clear_value b h c
  clear hc ht er e0 ea eb el
  field_simp
  ring

end tri
end Verif.Potential
