import Mathlib.Analysis.Calculus.MeanValue
import Mathlib.Analysis.Calculus.ContDiff.RCLike
import Mathlib.Analysis.SpecialFunctions.Exp
import Mathlib.Tactic.FieldSimp

/-!
# One step methods: from the local error to the error of a run
-/

namespace Verif.OneStep

open Set

variable {X : Type*} [NormedAddCommGroup X] [NormedSpace ℝ X]

/-- a function which is continuously differentiable is Lipschitz on a compact convex set -/
theorem lipschitz_of_contDiff {E F : Type*} [NormedAddCommGroup E] [NormedSpace ℝ E] [NormedAddCommGroup F] [NormedSpace ℝ F]
    {f : E → F} (hf : ContDiff ℝ 1 f) {K : Set E} (hK : IsCompact K) (hc : Convex ℝ K) :
    ∃ L : ℝ, 0 < L ∧ ∀ x ∈ K, ∀ y ∈ K, ‖f y - f x‖ ≤ L * ‖y - x‖ := by
  obtain ⟨C, hC⟩ := hK.exists_bound_of_continuousOn ((hf.continuous_fderiv one_ne_zero).continuousOn)
  refine ⟨max C 1, lt_max_of_lt_right one_pos, fun x hx y hy => ?_⟩
  exact hc.norm_image_sub_le_of_norm_fderiv_le (fun z _ => (hf.differentiable one_ne_zero) z)
    (fun z hz => (hC z hz).trans (le_max_left _ _)) hx hy

/-- local error of the exact solution against one explicit Euler step -/
theorem exact_local {g : ℝ × X → X} {S : Set X} {t0 T L G : ℝ} (hL : 0 ≤ L)
    (hlip : ∀ t ∈ Icc t0 T, ∀ u ∈ S, ∀ t' ∈ Icc t0 T, ∀ u' ∈ S, ‖g (t', u') - g (t, u)‖ ≤ L * ‖((t', u') : ℝ × X) - (t, u)‖)
    (hG : ∀ t ∈ Icc t0 T, ∀ u ∈ S, ‖g (t, u)‖ ≤ G) {y : ℝ → X} (hy : ∀ t ∈ Icc t0 T, HasDerivWithinAt y (g (t, y t)) (Icc t0 T) t)
    (hS : ∀ t ∈ Icc t0 T, y t ∈ S) {t t' : ℝ} (ht : t ∈ Icc t0 T) (ht' : t' ∈ Icc t0 T) (hle : t ≤ t') :
    ‖y t' - y t - (t' - t) • g (t, y t)‖ ≤ L * (1 + G) * (t' - t) ^ 2 := by
  have hG0 : 0 ≤ G := (norm_nonneg _).trans (hG t ht _ (hS t ht))
  have hsub : Icc t t' ⊆ Icc t0 T := Icc_subset_Icc ht.1 ht'.2
  have hy1 : ∀ s ∈ Icc t t', ‖y s - y t‖ ≤ G * (s - t) := by
    intro s hs
    have := (convex_Icc t0 T).norm_image_sub_le_of_norm_hasDerivWithin_le hy (fun s hs => hG s hs _ (hS s hs)) ht (hsub hs)
    rwa [Real.norm_of_nonneg (by linarith [hs.1])] at this
  have hd : ∀ s ∈ Icc t t', HasDerivWithinAt (fun s => y s - y t - (s - t) • g (t, y t)) (g (s, y s) - g (t, y t)) (Icc t t') s := by
    intro s hs
    have h1 := ((hy s (hsub hs)).mono hsub).sub_const (y t)
    have h2 : HasDerivWithinAt (fun s => (s - t) • g (t, y t)) ((1 : ℝ) • g (t, y t)) (Icc t t') s :=
      ((hasDerivWithinAt_id s (Icc t t')).sub_const t).smul_const (g (t, y t))
    rw [one_smul] at h2
    exact h1.sub h2
  have hb : ∀ s ∈ Icc t t', ‖g (s, y s) - g (t, y t)‖ ≤ L * ((1 + G) * (t' - t)) := by
    intro s hs
    refine (hlip t ht _ (hS t ht) s (hsub hs) _ (hS s (hsub hs))).trans (mul_le_mul_of_nonneg_left ?_ hL)
    rw [Prod.mk_sub_mk, Prod.norm_def]
    have h1 := hy1 s hs
    have h2 : s - t ≤ t' - t := by linarith [hs.2]
    have h3 : 0 ≤ s - t := by linarith [hs.1]
    refine max_le ?_ ?_
    · rw [Real.norm_of_nonneg h3]
      nlinarith
    · nlinarith
  have := (convex_Icc t t').norm_image_sub_le_of_norm_hasDerivWithin_le hd hb (left_mem_Icc.mpr hle) (right_mem_Icc.mpr hle)
  simp only [sub_self, zero_smul, sub_zero] at this
  rw [Real.norm_of_nonneg (by linarith)] at this
  nlinarith

/-- growth of the error over one step -/
theorem error_step {L C dmax e e' τ dt : ℝ} (hL : 0 < L) (hC : 0 ≤ C) (hd : 0 ≤ dt) (hd' : dt ≤ dmax)
    (he : e ≤ C * dmax / L * (Real.exp (L * τ) - 1)) (he' : e' ≤ (1 + L * dt) * e + C * dt ^ 2) :
    e' ≤ C * dmax / L * (Real.exp (L * (τ + dt)) - 1) := by
  set A := C * dmax / L with hA
  have hA0 : 0 ≤ A := by rw [hA]; exact div_nonneg (mul_nonneg hC (hd.trans hd')) hL.le
  have hAL : A * L = C * dmax := by rw [hA]; field_simp
  have h1 : (1 + L * dt) * e ≤ (1 + L * dt) * (A * (Real.exp (L * τ) - 1)) :=
    mul_le_mul_of_nonneg_left he (by positivity)
  have h2 : C * dt ^ 2 ≤ A * L * dt := by
    rw [hAL]
    nlinarith [mul_nonneg hC hd]
  have h3 : 1 + L * dt ≤ Real.exp (L * dt) := by linarith [Real.add_one_le_exp (L * dt)]
  have h4 : Real.exp (L * (τ + dt)) = Real.exp (L * τ) * Real.exp (L * dt) := by rw [mul_add, Real.exp_add]
  have h5 : A * (Real.exp (L * τ) * (1 + L * dt)) ≤ A * (Real.exp (L * τ) * Real.exp (L * dt)) :=
    mul_le_mul_of_nonneg_left (mul_le_mul_of_nonneg_left h3 (Real.exp_pos _).le) hA0
  rw [h4]
  nlinarith

/-- the error after one step of a method with local error `C₁ dt²` -/
theorem error_recurrence {g : ℝ × X → X} {S : Set X} {t0 T L G C₁ : ℝ} (hL : 0 ≤ L)
    (hlip : ∀ t ∈ Icc t0 T, ∀ u ∈ S, ∀ t' ∈ Icc t0 T, ∀ u' ∈ S, ‖g (t', u') - g (t, u)‖ ≤ L * ‖((t', u') : ℝ × X) - (t, u)‖)
    (hG : ∀ t ∈ Icc t0 T, ∀ u ∈ S, ‖g (t, u)‖ ≤ G) {y : ℝ → X} (hy : ∀ t ∈ Icc t0 T, HasDerivWithinAt y (g (t, y t)) (Icc t0 T) t)
    (hS : ∀ t ∈ Icc t0 T, y t ∈ S) {t dt : ℝ} (ht : t ∈ Icc t0 T) (ht' : t + dt ∈ Icc t0 T) (hdt : 0 ≤ dt) {u u' : X} (hu : u ∈ S)
    (hloc : ‖u' - u - dt • g (t, u)‖ ≤ C₁ * dt ^ 2) :
    ‖u' - y (t + dt)‖ ≤ (1 + L * dt) * ‖u - y t‖ + (C₁ + L * (1 + G)) * dt ^ 2 := by
  have h1 := exact_local hL hlip hG hy hS ht ht' (by linarith)
  rw [add_sub_cancel_left] at h1
  have h2 := hlip t ht _ (hS t ht) t ht u hu
  rw [Prod.mk_sub_mk, sub_self, Prod.norm_def, norm_zero, max_eq_right (norm_nonneg _)] at h2
  have e : u' - y (t + dt) = (u' - u - dt • g (t, u)) - (y (t + dt) - y t - dt • g (t, y t)) + (u - y t)
      + dt • (g (t, u) - g (t, y t)) := by
    rw [smul_sub]
    abel
  have h3 : ‖dt • (g (t, u) - g (t, y t))‖ ≤ dt * (L * ‖u - y t‖) := by
    rw [norm_smul, Real.norm_of_nonneg hdt]
    exact mul_le_mul_of_nonneg_left h2 hdt
  rw [e]
  calc _ ≤ ‖u' - u - dt • g (t, u)‖ + ‖y (t + dt) - y t - dt • g (t, y t)‖ + ‖u - y t‖ + ‖dt • (g (t, u) - g (t, y t))‖ := by
        refine (norm_add_le _ _).trans (add_le_add_left ((norm_add_le _ _).trans (add_le_add_left (norm_sub_le _ _) _)) _)
    _ ≤ _ := by nlinarith

end Verif.OneStep
