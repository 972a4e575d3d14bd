import Verif.Proofs.MacroStep

/-!
# Growth of the error of the steps of a uniform magnetization
-/

namespace Verif.MacroSpin

open Verif.SemiDiscrete Verif.SemiDiscrete.Setting Verif.WeakForm Verif.Tetra Set

/-- a motion keeps the length of the magnetization -/
theorem motion_unit {b : Body} {t0 T : ℝ} {y : ℝ → V3} (hy : b.Motion t0 T y) (h0 : (y t0).dot (y t0) = 1) (t : ℝ) (ht : t ∈ Icc t0 T) :
    (y t).dot (y t) = 1 := by
  have hder : ∀ s ∈ Icc t0 T, HasDerivWithinAt (fun s => (y s).dot (y s)) 0 (Icc t0 T) s := by
    intro s hs
    obtain ⟨w, hd, hw⟩ := hy s hs
    have h1 : (y s).dot w = 0 := by
      rw [hw]
      v3_ring
      ring
    refine (hd.dot hd).congr_deriv ?_
    rw [V3.dot_comm w, h1, add_zero]
  have := (convex_Icc t0 T).norm_image_sub_le_of_norm_hasDerivWithin_le (C := 0) hder (by simp)
    (left_mem_Icc.mpr (ht.1.trans ht.2)) ht
  rw [zero_mul] at this
  have h3 := norm_le_zero_iff.mp this
  rw [h0] at h3
  linarith

/-- a motion in the explicit form -/
theorem motion_rhs {b : Body} {t0 T : ℝ} {y : ℝ → V3} (hy : b.Motion t0 T y) (h0 : (y t0).dot (y t0) = 1) (t : ℝ) (ht : t ∈ Icc t0 T) :
    HasDeriv y (b.rhs (y t)) (Icc t0 T) t := by
  obtain ⟨w, hd, hw⟩ := hy t ht
  rw [← implicit_unique b (motion_unit hy h0 t ht) hw]
  exact hd

theorem at_self (b : Body) : b.at b.H0 = b := rfl

/-- after a step of at most `dm`: the velocity is close to that of the equation, and the magnetization close to the motion -/
def Close (b : Body) (C L A D dm t0 : ℝ) (y : ℝ → V3) (t : ℝ) (U V : V3) : Prop :=
  ‖co (V - b.rhs U)‖ ≤ C * dm ∧ ‖co U - co (y t)‖ ≤ dm ^ 2 * (D * Real.exp (L * (t - t0)) - A)

theorem grow_start {C P Kr L D A dt dm e err : ℝ} (hC : 0 ≤ C) (hP : 0 ≤ P) (hL : 0 < L) (hdt : 0 < dt) (hdt1 : dt ≤ 1) (hdm : dt ≤ dm)
    (hD : 0 ≤ D) (he0 : 0 ≤ e) (he : e ≤ Kr) (h : err ≤ (P + C) * dt ^ 3 + C * dt ^ 2 * e) (hDA : P + C + C * Kr = D - A) :
    err ≤ dm ^ 2 * (D * Real.exp (L * dt) - A) := by
  have hexp : 1 ≤ Real.exp (L * dt) := Real.one_le_exp (by positivity)
  have h1 : dt ^ 2 ≤ dm ^ 2 := by gcongr
  have h2 : dt ^ 3 ≤ dm ^ 2 := by
    have : dt ^ 3 ≤ dt ^ 2 := pow_le_pow_of_le_one hdt.le hdt1 (by norm_num)
    linarith
  have n2 : C * dt ^ 2 * e ≤ C * dm ^ 2 * Kr := by gcongr
  have n3 : (P + C) * dt ^ 3 ≤ (P + C) * dm ^ 2 := mul_le_mul_of_nonneg_left h2 (by positivity)
  have n5 : D * 1 ≤ D * Real.exp (L * dt) := mul_le_mul_of_nonneg_left hexp hD
  have n6 : P + C + C * Kr ≤ D * Real.exp (L * dt) - A := by linarith
  have n7 := mul_le_mul_of_nonneg_left n6 (sq_nonneg dm)
  have e1 : dm ^ 2 * (P + C + C * Kr) = (P + C) * dm ^ 2 + C * dm ^ 2 * Kr := by ring
  linarith

theorem grow_later {C P L D A dt dm e err err' τ : ℝ} (hC : 0 ≤ C) (hP : 0 ≤ P) (hL : 0 < L) (hdt : 0 < dt) (hdm : dt ≤ dm) (hD : 0 ≤ D)
    (he : e ≤ C * dm) (herr : err ≤ dm ^ 2 * (D * Real.exp (L * τ) - A)) (h : err' ≤ (1 + L * dt) * err + (P + C) * dt ^ 3 + C * dt ^ 2 * e)
    (hA : A * L = P + C + C * C) : err' ≤ dm ^ 2 * (D * Real.exp (L * (τ + dt)) - A) := by
  have hexp : 1 + L * dt ≤ Real.exp (L * dt) := by linarith [Real.add_one_le_exp (L * dt)]
  have hdm0 : 0 < dm := hdt.trans_le hdm
  rw [mul_add, Real.exp_add]
  have n1 := mul_le_mul_of_nonneg_left herr (show 0 ≤ 1 + L * dt by positivity)
  have n2 : C * dt ^ 2 * e ≤ C * dt ^ 2 * (C * dm) := mul_le_mul_of_nonneg_left he (by positivity)
  have n0 : dt ^ 2 * dm ≤ dm ^ 2 * dt := by nlinarith [mul_pos hdt hdm0]
  have n3 : C * C * (dt ^ 2 * dm) ≤ C * C * (dm ^ 2 * dt) := mul_le_mul_of_nonneg_left n0 (mul_nonneg hC hC)
  have n8 : dt ^ 3 ≤ dm ^ 2 * dt := by
    have : dt ^ 2 ≤ dm ^ 2 := by gcongr
    nlinarith
  have n4 : (P + C) * dt ^ 3 ≤ (P + C) * (dm ^ 2 * dt) := mul_le_mul_of_nonneg_left n8 (by positivity)
  have n5 : (P + C) * (dm ^ 2 * dt) + C * C * (dm ^ 2 * dt) = A * L * (dm ^ 2 * dt) := by rw [hA]; ring
  have n6 : D * Real.exp (L * τ) * (1 + L * dt) ≤ D * Real.exp (L * τ) * Real.exp (L * dt) :=
    mul_le_mul_of_nonneg_left hexp (by positivity)
  have n7 := mul_le_mul_of_nonneg_left n6 (sq_nonneg dm)
  have e1 : C * dt ^ 2 * (C * dm) = C * C * (dt ^ 2 * dm) := by ring
  have e2 : (1 + L * dt) * (dm ^ 2 * (D * Real.exp (L * τ) - A)) = dm ^ 2 * (D * Real.exp (L * τ) * (1 + L * dt)) - dm ^ 2 * A - A * L * (dm ^ 2 * dt) := by
    ring
  have e3 : dm ^ 2 * (D * (Real.exp (L * τ) * Real.exp (L * dt)) - A) = dm ^ 2 * (D * Real.exp (L * τ) * Real.exp (L * dt)) - dm ^ 2 * A := by ring
  rw [e3]
  linarith

/-- one step, from the start (with zero velocity) or from a state close to the motion -/
theorem close_step (b : Body) (hg : 0 < b.gamma) (ha : 0 < b.alpha) (t0 T : ℝ) :
    ∃ C L A D δ, 0 < C ∧ 0 < L ∧ 0 < A ∧ A < D ∧ 0 < δ ∧ ∀ (y : ℝ → V3), b.Motion t0 T y → (y t0).dot (y t0) = 1 →
      ∀ dm t dt U V v, dm ≤ δ → t ∈ Icc t0 T → t + dt ∈ Icc t0 T → 0 < dt → dt ≤ dm → U.dot U = 1 →
        ((t = t0 ∧ U = y t0 ∧ V = 0) ∨ Close b C L A D dm t0 y t U V) → b.Step dt U V v →
        ((U + (dt * b.gamma) * v).normalize).dot ((U + (dt * b.gamma) * v).normalize) = 1 ∧
        Close b C L A D dm t0 y (t + dt) (U + (dt * b.gamma) * v).normalize (b.gamma * v) := by
  have hu1 := smooth_vec (Z := E × E) contDiff_fst
  have hh1 := smooth_vec (Z := E × E) contDiff_snd
  obtain ⟨Kr, hKr, hrb, hrl⟩ := bounded (F := fun u h => (b.at h).rhs u) (smooth_rhs b hu1 hh1) ‖co b.H0‖
  obtain ⟨Ka, hKa, -, hal⟩ := bounded (F := fun u h => (b.at h).acc u) (smooth_acc b hu1 hh1) ‖co b.H0‖
  obtain ⟨C, δ, hC, hδ, hδ1, hloc⟩ := local_step b hg ha ‖co b.H0‖ (Kr + 1) (by positivity)
  have hrb' := fun u hu => hrb u b.H0 hu le_rfl
  have hrl' := fun u u' hu hu' => hrl u u' b.H0 hu hu' le_rfl
  have hal' := fun u u' hu hu' => hal u u' b.H0 hu hu' le_rfl
  have hloc' := fun u W v dt => hloc b.H0 u W v dt le_rfl
  simp only [at_self] at hrb' hrl' hal' hloc'
  obtain ⟨L, hL, hLp⟩ : ∃ L, L = Kr + Ka ∧ 0 < L := ⟨_, rfl, by positivity⟩
  obtain ⟨A, hA, hAp⟩ : ∃ A, A * L = Ka * Kr + C + C * C ∧ 0 < A :=
    ⟨(Ka * Kr + C + C * C) / L, div_mul_cancel₀ _ hLp.ne', by positivity⟩
  obtain ⟨D, hD⟩ : ∃ D, D = A + (Ka * Kr + C + C * Kr) := ⟨_, rfl⟩
  refine ⟨C, L, A, D, min δ (1 / C), hC, hLp, hAp, by rw [hD]; nlinarith [mul_pos hKa hKr, mul_pos hC hKr], lt_min hδ (by positivity), ?_⟩
  intro y hy h0 dm t dt U V v hdm ht ht' hdt hdtm hU hcase hst
  have hdm0 : 0 < dm := hdt.trans_le hdtm
  have hdt1 : dt ≤ 1 := hdtm.trans (hdm.trans ((min_le_left _ _).trans hδ1))
  have hCdm : C * dm ≤ 1 := by
    have := hdm.trans (min_le_right _ _)
    rw [le_div_iff₀ hC] at this
    linarith
  have hyu := motion_unit hy h0 t ht
  have heQ : ‖co (V - b.rhs U)‖ ≤ Kr + 1 := by
    rcases hcase with ⟨-, -, rfl⟩ | hc
    · have e : (0 : V3) - b.rhs U = (-1 : ℝ) * b.rhs U := by ext <;> simp
      rw [e, co_smul, norm_smul]
      have := hrb' U (unit_ball hU)
      norm_num
      linarith
    · exact hc.1.trans (by linarith)
  obtain ⟨h1, h2, h3⟩ := hloc' U V v dt hU hdt (hdtm.trans (hdm.trans (min_le_left _ _))) heQ hst
  refine ⟨h3, h2.trans (mul_le_mul_of_nonneg_left hdtm hC.le), ?_⟩
  -- the exact motion
  have hex := OneStep.exact_local2 (f := fun c : E => co (b.rhs (vec c))) (g := fun c : E => co (b.acc (vec c))) (S := Metric.closedBall (0 : E) 1)
    (y := fun s => co (y s)) hKa.le
    (fun u hu u' hu' => by
      have := hal' (vec u) (vec u') (by rw [co_vec]; exact mem_closedBall_zero_iff.mp hu) (by rw [co_vec]; exact mem_closedBall_zero_iff.mp hu')
      rwa [co_vec, co_vec] at this)
    (fun u hu => hrb' (vec u) (by rw [co_vec]; exact mem_closedBall_zero_iff.mp hu))
    (fun s hs => (motion_rhs hy h0 s hs).co)
    (fun s hs => ((motion_rhs hy h0 s hs).rhs b).co)
    (fun s hs => mem_closedBall_zero_iff.mpr (unit_ball (motion_unit hy h0 s hs))) ht ht' (by linarith)
  simp only [add_sub_cancel_left, vec_co] at hex
  have k1 := hrl' (y t) U (unit_ball hyu) (unit_ball hU)
  have k2 := hal' (y t) U (unit_ball hyu) (unit_ball hU)
  generalize (U + (dt * b.gamma) * v).normalize = U' at *
  have hrec : ‖co U' - co (y (t + dt))‖ ≤ (1 + L * dt) * ‖co U - co (y t)‖ + (Ka * Kr + C) * dt ^ 3 + C * dt ^ 2 * ‖co (V - b.rhs U)‖ := by
    have e : co U' - co (y (t + dt)) = (co U' - co U - dt • co (b.rhs U) - (dt ^ 2 / 2) • co (b.acc U))
        - (co (y (t + dt)) - co (y t) - dt • co (b.rhs (y t)) - (dt ^ 2 / 2) • co (b.acc (y t)))
        + (co U - co (y t)) + (dt • (co (b.rhs U) - co (b.rhs (y t))) + (dt ^ 2 / 2) • (co (b.acc U) - co (b.acc (y t)))) := by
      rw [smul_sub, smul_sub]
      abel
    rw [e]
    have n1 : ‖dt • (co (b.rhs U) - co (b.rhs (y t)))‖ ≤ dt * (Kr * ‖co U - co (y t)‖) := by
      rw [norm_smul, Real.norm_of_nonneg hdt.le]
      exact mul_le_mul_of_nonneg_left k1 hdt.le
    have n2 : ‖(dt ^ 2 / 2) • (co (b.acc U) - co (b.acc (y t)))‖ ≤ dt * (Ka * ‖co U - co (y t)‖) := by
      rw [norm_smul, Real.norm_of_nonneg (by positivity)]
      have : dt ^ 2 / 2 ≤ dt := by nlinarith
      exact mul_le_mul this k2 (norm_nonneg _) hdt.le
    refine (norm_add_le _ _).trans ?_
    have n3 := norm_add_le (dt • (co (b.rhs U) - co (b.rhs (y t)))) ((dt ^ 2 / 2) • (co (b.acc U) - co (b.acc (y t))))
    have n4 := norm_add_le ((co U' - co U - dt • co (b.rhs U) - (dt ^ 2 / 2) • co (b.acc U))
        - (co (y (t + dt)) - co (y t) - dt • co (b.rhs (y t)) - (dt ^ 2 / 2) • co (b.acc (y t)))) (co U - co (y t))
    have n5 := norm_sub_le (co U' - co U - dt • co (b.rhs U) - (dt ^ 2 / 2) • co (b.acc U))
        (co (y (t + dt)) - co (y t) - dt • co (b.rhs (y t)) - (dt ^ 2 / 2) • co (b.acc (y t)))
    have e2 : C * dt * (dt ^ 2 + dt * ‖co (V - b.rhs U)‖) = C * dt ^ 3 + C * dt ^ 2 * ‖co (V - b.rhs U)‖ := by ring
    rw [e2] at h1
    rw [hL]
    nlinarith
  have hD0 : A ≤ D := by rw [hD]; nlinarith [mul_pos hKa hKr, mul_pos hC hKr]
  rcases hcase with ⟨rfl, rfl, rfl⟩ | hc
  · rw [sub_self, norm_zero, mul_zero, zero_add] at hrec
    have e : (0 : V3) - b.rhs (y t) = (-1 : ℝ) * b.rhs (y t) := by ext <;> simp
    have n1 : ‖co ((0 : V3) - b.rhs (y t))‖ ≤ Kr := by
      rw [e, co_smul, norm_smul]
      have := hrb' (y t) (unit_ball hyu)
      norm_num
      linarith
    rw [add_sub_cancel_left]
    exact grow_start hC.le (mul_pos hKa hKr).le hLp hdt hdt1 hdtm (hAp.le.trans hD0) (norm_nonneg _) n1 hrec (by rw [hD]; ring)
  · have e0 : t + dt - t0 = (t - t0) + dt := by ring
    rw [e0]
    exact grow_later hC.le (mul_pos hKa hKr).le hLp hdt hdtm (hAp.le.trans hD0) hc.1 hc.2 hrec hA

end Verif.MacroSpin
