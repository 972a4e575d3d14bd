import Mathlib.Analysis.SpecialFunctions.ExpDeriv
import Verif.Proofs.MacroError
import Verif.Proofs.GlobalOde

/-!
# Motion of a uniform magnetization in a field that depends on the time
-/

namespace Verif.MacroSpin

open Verif.SemiDiscrete Verif.SemiDiscrete.Setting Verif.WeakForm Verif.Tetra Set

theorem motion_driven {b : Body} {t0 T : ℝ} {y : ℝ → V3} : b.Motion t0 T y ↔ b.Driven (fun _ => b.H0) t0 T y := Iff.rfl

theorem driven_unit {b : Body} {h : ℝ → V3} {t0 T : ℝ} {y : ℝ → V3} (hy : b.Driven h t0 T y) (h0 : (y t0).dot (y t0) = 1) (t : ℝ)
    (ht : t ∈ Icc t0 T) : (y t).dot (y t) = 1 := by
  have hder : ∀ s ∈ Icc t0 T, HasDerivWithinAt (fun s => (y s).dot (y s)) 0 (Icc t0 T) s := by
    intro s hs
    obtain ⟨w, hd, hw⟩ := hy s hs
    have h1 : (y s).dot w = 0 := by
      rw [hw]
      v3_ring
      ring
    refine (hd.dot hd).congr_deriv ?_
    rw [V3.dot_comm w, h1, add_zero]
  have := (convex_Icc t0 T).norm_image_sub_le_of_norm_hasDerivWithin_le (C := 0) hder (by simp)
    (left_mem_Icc.mpr (ht.1.trans ht.2)) ht
  rw [zero_mul] at this
  have h3 := norm_le_zero_iff.mp this
  rw [h0] at h3
  linarith

theorem driven_rhs {b : Body} {h : ℝ → V3} {t0 T : ℝ} {y : ℝ → V3} (hy : b.Driven h t0 T y) (h0 : (y t0).dot (y t0) = 1) (t : ℝ)
    (ht : t ∈ Icc t0 T) : HasDeriv y ((b.at (h t)).rhs (y t)) (Icc t0 T) t := by
  obtain ⟨w, hd, hw⟩ := hy t ht
  rw [← implicit_unique (b.at (h t)) (driven_unit hy h0 t ht) hw]
  exact hd

/-- the equation in a form which keeps the length of every vector -/
noncomputable def Body.rot (b : Body) (u : V3) : V3 :=
  (b.gamma / (1 + b.alpha ^ 2)) * (b.alpha * -(u.cross (u.cross (b.field u))) - u.cross (b.field u))

theorem rot_rhs (b : Body) {u : V3} (hu : u.dot u = 1) : b.rot u = b.rhs u := by
  unfold Body.rot Body.rhs
  have e : -(u.cross (u.cross (b.field u))) = b.field u - (u.dot (b.field u)) * u := by
    generalize b.field u = H
    have hu' : u.x * u.x + u.y * u.y + u.z * u.z = 1 := hu
    ext <;> v3_ring
    · linear_combination H.x * hu'
    · linear_combination H.y * hu'
    · linear_combination H.z * hu'
  rw [e]

theorem rot_tang (b : Body) (u : V3) : u.dot (b.rot u) = 0 := by
  unfold Body.rot
  generalize b.field u = H
  v3_ring
  ring

theorem rot_implicit (b : Body) {u : V3} (hu : u.dot u = 1) :
    b.rot u = -(b.gamma * u.cross (b.field u)) + b.alpha * u.cross (b.rot u) := by
  unfold Body.rot
  generalize b.field u = G
  have hu1 : u.x * u.x + u.y * u.y + u.z * u.z = 1 := hu
  have hden : 1 + b.alpha ^ 2 ≠ 0 := by positivity
  ext <;> v3_ring <;> field_simp
  · linear_combination (-b.gamma * b.alpha ^ 2 * (u.y * G.z - u.z * G.y)) * hu1
  · linear_combination (-b.gamma * b.alpha ^ 2 * (u.z * G.x - u.x * G.z)) * hu1
  · linear_combination (-b.gamma * b.alpha ^ 2 * (u.x * G.y - u.y * G.x)) * hu1

theorem smooth_rot (b : Body) {Z : Type*} [NormedAddCommGroup Z] [NormedSpace ℝ Z] {u h : Z → V3} (hu : SmoothV u) (hh : SmoothV h) :
    SmoothV fun z => (b.at (h z)).rot (u z) := by
  have hf := smooth_field b hu hh
  exact SmoothV.smul (c := fun _ => b.gamma / (1 + b.alpha ^ 2)) contDiff_const
    ((SmoothV.smul (c := fun _ => b.alpha) contDiff_const (hu.cross (hu.cross hf)).neg).sub (hu.cross hf))

theorem deriv_of_co {x : ℝ → E} {w : V3} {s : Set ℝ} {t : ℝ} (h : HasDerivWithinAt x (co w) s t) : HasDeriv (fun t => vec (x t)) w s t :=
  have e := hasDerivWithinAt_pi.mp h
  ⟨e 0, e 1, e 2⟩

/-- the equation has exactly one solution from each unit vector -/
theorem exists_driven (b : Body) {h : ℝ → V3} (hh : SmoothV h) {t0 T : ℝ} (hT : t0 ≤ T) {u : V3} (hu : u.dot u = 1) :
    ∃ y, b.Driven h t0 T y ∧ y t0 = u ∧ (∀ t ∈ Icc t0 T, (y t).dot (y t) = 1) ∧
      ∀ y', b.Driven h t0 T y' → y' t0 = u → ∀ t ∈ Icc t0 T, y' t = y t := by
  let F : ℝ × E → E := fun z => co ((b.at (h z.1)).rot (vec z.2))
  have hF : ContDiff ℝ 1 F := smooth_co (smooth_rot b (smooth_vec contDiff_snd) ⟨hh.x.comp contDiff_fst, hh.y.comp contDiff_fst, hh.z.comp contDiff_fst⟩)
  obtain ⟨x, hx0, hx⟩ := GlobalOde.exists_solution hF (A := fun c => (vec c).dot (vec c) = 1) (fun c hc => by
      have := unit_ball hc
      rwa [co_vec] at this) (fun a c x hx ha t ht => by
      have hder : ∀ s ∈ Icc a c, HasDerivWithinAt (fun s => (vec (x s)).dot (vec (x s))) 0 (Icc a c) s := by
        intro s hs
        have hd := deriv_of_co (hx s hs)
        refine (hd.dot hd).congr_deriv ?_
        rw [V3.dot_comm, rot_tang, add_zero]
      have := (convex_Icc a c).norm_image_sub_le_of_norm_hasDerivWithin_le (C := 0) hder (by simp)
        (left_mem_Icc.mpr (ht.1.trans ht.2)) ht
      rw [zero_mul] at this
      have h3 := norm_le_zero_iff.mp this
      rw [ha] at h3
      linarith) hT (co u) (by rw [vec_co]; exact hu)
  have hdr : b.Driven h t0 T fun t => vec (x t) := by
    have hunit : ∀ t ∈ Icc t0 T, (vec (x t)).dot (vec (x t)) = 1 := by
      intro t ht
      have hder : ∀ s ∈ Icc t0 T, HasDerivWithinAt (fun s => (vec (x s)).dot (vec (x s))) 0 (Icc t0 T) s := by
        intro s hs
        have hd := deriv_of_co (hx s hs)
        refine (hd.dot hd).congr_deriv ?_
        rw [V3.dot_comm, rot_tang, add_zero]
      have := (convex_Icc t0 T).norm_image_sub_le_of_norm_hasDerivWithin_le (C := 0) hder (by simp)
        (left_mem_Icc.mpr (ht.1.trans ht.2)) ht
      rw [zero_mul] at this
      have h3 := norm_le_zero_iff.mp this
      rw [hx0, vec_co, hu] at h3
      linarith
    intro t ht
    refine ⟨_, deriv_of_co (hx t ht), ?_⟩
    exact rot_implicit (b.at (h t)) (hunit t ht)
  have h0 : vec (x t0) = u := by rw [hx0, vec_co]
  refine ⟨fun t => vec (x t), hdr, h0, driven_unit hdr (by rw [h0]; exact hu), fun y' hy' hy0 t ht => ?_⟩
  have hK : IsCompact (Icc t0 T ×ˢ Metric.closedBall (0 : E) 1) := isCompact_Icc.prod (isCompact_closedBall _ _)
  obtain ⟨L, hL, hlip⟩ := OneStep.lipschitz_of_contDiff hF hK ((convex_Icc t0 T).prod (convex_closedBall _ _))
  have huy : ∀ t ∈ Icc t0 T, (y' t).dot (y' t) = 1 := driven_unit hy' (by rw [hy0]; exact hu)
  have hux : ∀ t ∈ Icc t0 T, (vec (x t)).dot (vec (x t)) = 1 := driven_unit hdr (by rw [h0]; exact hu)
  have h1 := GlobalOde.unique_solution (K := Metric.closedBall (0 : E) 1) hL.le (F := F) (fun t ht u hu u' hu' => by
      have := hlip (t, u') ⟨ht, hu'⟩ (t, u) ⟨ht, hu⟩
      refine this.trans (le_of_eq ?_)
      have e : (t, u) - (t, u') = ((0 : ℝ), u - u') := by rw [Prod.mk_sub_mk, sub_self]
      rw [e, Prod.norm_mk, norm_zero, max_eq_right (norm_nonneg _)])
    (x := fun t => co (y' t)) (fun t ht => by
      have := (driven_rhs hy' (by rw [hy0]; exact hu) t ht).co
      rw [← rot_rhs _ (huy t ht)] at this
      exact this) (fun t ht => mem_closedBall_zero_iff.mpr (unit_ball (huy t ht)))
    hx (fun t ht => mem_closedBall_zero_iff.mpr (by
      have := unit_ball (hux t ht)
      rwa [co_vec] at this)) (by
      rw [hy0, hx0]) t ht
  exact congrArg vec h1

/-! ## a field along z that grows with the time -/

/-- hyperbolic tangent -/
noncomputable def Z (s : ℝ) : ℝ := 1 - 2 / (Real.exp (2 * s) + 1)

theorem Z_zero : Z 0 = 0 := by norm_num [Z]

theorem Z_deriv (s : ℝ) : HasDerivAt Z (1 - Z s ^ 2) s := by
  have h1 : HasDerivAt (fun s : ℝ => Real.exp (2 * s) + 1) (Real.exp (2 * s) * 2) s := by
    have := ((hasDerivAt_id s).const_mul 2).exp.add_const 1
    simpa using this
  have hp : Real.exp (2 * s) + 1 ≠ 0 := by positivity
  have := ((h1.inv hp).const_mul 2).const_sub 1
  refine (this.congr_deriv ?_).congr_of_eventuallyEq (Filter.Eventually.of_forall fun s => ?_)
  · unfold Z
    field_simp
    ring
  · simp [Z, div_eq_mul_inv]

theorem Z_lt (s : ℝ) : Z s < 1 := by
  unfold Z
  have : 0 < 2 / (Real.exp (2 * s) + 1) := by positivity
  linarith

theorem Z_gt (s : ℝ) : -1 < Z s := by
  unfold Z
  have : 2 / (Real.exp (2 * s) + 1) < 2 := by
    rw [div_lt_iff₀ (by positivity)]
    nlinarith [Real.exp_pos (2 * s)]
  linarith

theorem Z_diff {a b : ℝ} (h : a ≤ b) : 0 ≤ Z b - Z a ∧ Z b - Z a ≤ b - a := by
  have h0 : ∀ s, 0 ≤ 1 - Z s ^ 2 := fun s => by nlinarith [Z_lt s, Z_gt s]
  constructor
  · have := (monotone_of_deriv_nonneg (fun s => (Z_deriv s).differentiableAt) fun s => by rw [(Z_deriv s).deriv]; exact h0 s) h
    linarith
  · have hd : ∀ s, HasDerivAt (fun s => s - Z s) (1 - (1 - Z s ^ 2)) s := fun s => (hasDerivAt_id s).sub (Z_deriv s)
    have := (monotone_of_deriv_nonneg (fun s => (hd s).differentiableAt) fun s => by rw [(hd s).deriv]; nlinarith) h
    dsimp only at this
    linarith

/-- second order lower bound -/
theorem Z_taylor {x q : ℝ} (hq : 0 ≤ q) : Z x + q * (1 - Z x ^ 2) - q ^ 2 ≤ Z (x + q) := by
  have hd : ∀ s, HasDerivAt (fun s => Z (x + s) - s * (1 - Z x ^ 2) + s ^ 2) ((1 - Z (x + s) ^ 2) - (1 - Z x ^ 2) + 2 * s) s := by
    intro s
    have h1 : HasDerivAt (fun s => Z (x + s)) (1 - Z (x + s) ^ 2) s := (Z_deriv (x + s)).comp_const_add x s
    have h2 : HasDerivAt (fun s : ℝ => s ^ 2) (2 * s) s := by simpa using hasDerivAt_pow 2 s
    have h3 := (h1.sub ((hasDerivAt_id s).mul_const (1 - Z x ^ 2))).add h2
    exact h3.congr_deriv (by ring)
  have hmono : MonotoneOn (fun s => Z (x + s) - s * (1 - Z x ^ 2) + s ^ 2) (Ici 0) := by
    refine monotoneOn_of_deriv_nonneg (convex_Ici 0) (fun s _ => (hd s).continuousAt.continuousWithinAt)
      (fun s _ => (hd s).differentiableAt.differentiableWithinAt) fun s hs => ?_
    rw [(hd s).deriv]
    rw [interior_Ici] at hs
    have hs' : 0 < s := hs
    obtain ⟨h1, h2⟩ := Z_diff (show x ≤ x + s by linarith)
    have h3 := Z_lt x
    have h4 := Z_lt (x + s)
    have h5 := Z_gt x
    nlinarith [Z_gt (x + s)]
  have := hmono (Set.mem_Ici.mpr le_rfl) (show q ∈ Ici (0 : ℝ) from hq) hq
  dsimp only at this
  rw [add_zero, zero_mul, sub_zero] at this
  nlinarith

/-- gyromagnetic ratio and damping 1, no demagnetizing field and no anisotropy -/
def Body.Bare (b : Body) : Prop := b.gamma = 1 ∧ b.alpha = 1 ∧ b.N = ⟨0, 0, 0⟩ ∧ b.Hk = 0

theorem bare_field {b : Body} (hb : b.Bare) (u : V3) : b.field u = b.H0 := by
  obtain ⟨-, -, h1, h2⟩ := hb
  unfold Body.field
  rw [h1, h2]
  ext <;> simp [Mat.app, V3.dot]

theorem bare_lin {b : Body} (hb : b.Bare) (u : V3) : b.lin u = 0 := by
  obtain ⟨-, -, h1, h2⟩ := hb
  unfold Body.lin
  rw [h1, h2]
  ext <;> simp [Mat.app, V3.dot]

/-- the exact motion from the x axis -/
theorem ramp_motion {b : Body} (hb : b.Bare) {T : ℝ} {y : ℝ → V3} (hy : b.Driven (fun t => ⟨0, 0, t⟩) 0 T y) (h0 : y 0 = ⟨1, 0, 0⟩) (t : ℝ)
    (ht : t ∈ Icc 0 T) : (y t).z = Z (t ^ 2 / 4) := by
  have hu0 : (y 0).dot (y 0) = 1 := by rw [h0]; simp [V3.dot]
  have hT : 0 ≤ T := ht.1.trans ht.2
  refine GlobalOde.unique_solution (K := Icc (-1 : ℝ) 1) (L := T) hT (F := fun p : ℝ × ℝ => p.1 / 2 * (1 - p.2 ^ 2)) (fun s hs u hu u' hu' => ?_)
    (x := fun t => (y t).z) (y := fun t => Z (t ^ 2 / 4)) (fun s hs => ?_) (fun s hs => ?_) (fun s hs => ?_) (fun s hs => ⟨(Z_gt _).le, (Z_lt _).le⟩) ?_ t ht
  · dsimp only
    have e : s / 2 * (1 - u ^ 2) - s / 2 * (1 - u' ^ 2) = -(s / 2 * (u + u')) * (u - u') := by ring
    rw [e, norm_mul, norm_neg]
    refine mul_le_mul_of_nonneg_right ?_ (norm_nonneg _)
    rw [Real.norm_eq_abs, abs_mul, abs_of_nonneg (by linarith [hs.1] : 0 ≤ s / 2)]
    have : |u + u'| ≤ 2 := abs_le.mpr ⟨by linarith [hu.1, hu'.1], by linarith [hu.2, hu'.2]⟩
    nlinarith [hs.1, hs.2, abs_nonneg (u + u')]
  · have h1 := (driven_rhs hy hu0 s hs).z
    refine h1.congr_deriv ?_
    have hbs : (b.at ⟨0, 0, s⟩).Bare := hb
    unfold Body.rhs
    rw [bare_field hbs, hbs.1, hbs.2.1]
    simp [Body.at, V3.dot, V3.cross]
    ring
  · have h1 := driven_unit hy hu0 s hs
    simp only [V3.dot] at h1
    exact ⟨by nlinarith [mul_self_nonneg (y s).x, mul_self_nonneg (y s).y], by nlinarith [mul_self_nonneg (y s).x, mul_self_nonneg (y s).y]⟩
  · have h1 : HasDerivAt (fun s : ℝ => s ^ 2 / 4) (s / 2) s := by
      have := (hasDerivAt_pow 2 s).div_const 4
      refine this.congr_deriv ?_
      norm_num
      ring
    have := (Z_deriv (s ^ 2 / 4)).comp s h1
    refine (this.congr_deriv ?_).hasDerivWithinAt
    ring
  · rw [h0]
    norm_num [Z_zero]

theorem alphaEff_nonneg {dt h : ℝ} (hdt : 0 < dt) : 0 ≤ alphaEff 1 dt 1 h := by
  unfold alphaEff
  dsimp only
  have hM : 0 < 2 * 1 * (1 / 10) / (1 * dt) := by positivity
  split_ifs
  · positivity
  · positivity
  · positivity
  · refine div_nonneg one_pos.le ?_
    have : 1 * dt / (2 * 1) * h ≤ 0 := mul_nonpos_of_nonneg_of_nonpos (by positivity) (by linarith)
    linarith

/-- one step in the field at its start -/
theorem ramp_step {b : Body} (hb : b.Bare) {t dt : ℝ} {U V v : V3} (ht : 0 ≤ t) (hdt : 0 < dt) (hU : U.dot U = 1) (hz : 0 ≤ U.z)
    (hst : (b.at ⟨0, 0, t⟩).Step dt U V v) :
    0 ≤ ((U + (dt * 1) * v).normalize).z ∧ ((U + (dt * 1) * v).normalize).z ≤ U.z + t * dt / 2 * (1 - U.z ^ 2) := by
  have hbs : (b.at ⟨0, 0, t⟩).Bare := hb
  unfold Body.Step at hst
  rw [bare_field hbs, bare_lin hbs, hbs.1, hbs.2.1] at hst
  have ha := alphaEff_nonneg (h := U.dot (b.at ⟨0, 0, t⟩).H0) hdt
  generalize alphaEff 1 dt 1 (U.dot (b.at ⟨0, 0, t⟩).H0) = a at hst ha
  have e0 : (b.at ⟨0, 0, t⟩).H0 + (dt / 2) * (0 : V3) = ⟨0, 0, t⟩ := by ext <;> simp [Body.at]
  rw [e0] at hst
  have htan : U.dot v = 0 := step_tang hst
  have hU' : U.x * U.x + U.y * U.y + U.z * U.z = 1 := hU
  have htan' : U.x * v.x + U.y * v.y + U.z * v.z = 0 := htan
  have hx := congrArg V3.x hst
  have hy := congrArg V3.y hst
  have hzz := congrArg V3.z hst
  simp only [V3.cross, V3.add_x, V3.add_y, V3.add_z, V3.smul_x, V3.smul_y, V3.smul_z, V3.neg_x, V3.neg_y, V3.neg_z] at hx hy hzz
  have hz1 : U.z ^ 2 ≤ 1 := by nlinarith [mul_self_nonneg U.x, mul_self_nonneg U.y]
  have key : (1 + a ^ 2) * v.z = a * t * (1 - U.z ^ 2) := by
    linear_combination hzz + a * U.x * hy - a * U.y * hx + (a * t - a ^ 2 * v.z) * hU' + a ^ 2 * U.z * htan'
  have hpos : 0 < 1 + a ^ 2 := by positivity
  have hvz : v.z = a * t * (1 - U.z ^ 2) / (1 + a ^ 2) := by
    rw [eq_div_iff hpos.ne']
    linarith
  have hv0 : 0 ≤ v.z := by
    rw [hvz]
    exact div_nonneg (mul_nonneg (mul_nonneg ha ht) (by linarith)) hpos.le
  have hv1 : v.z ≤ t / 2 * (1 - U.z ^ 2) := by
    rw [hvz, div_le_iff₀ hpos]
    have : 0 ≤ t * (1 - U.z ^ 2) := mul_nonneg ht (by linarith)
    nlinarith [mul_nonneg this (sq_nonneg (1 - a))]
  have hn : 1 ≤ (U + (dt * 1) * v).nsq := by
    have : (U + (dt * 1) * v).nsq = 1 + dt ^ 2 * (v.x ^ 2 + v.y ^ 2 + v.z ^ 2) := by
      simp only [V3.nsq, V3.add_x, V3.add_y, V3.add_z, V3.smul_x, V3.smul_y, V3.smul_z]
      linear_combination hU' + 2 * dt * htan'
    rw [this]
    have : 0 ≤ dt ^ 2 * (v.x ^ 2 + v.y ^ 2 + v.z ^ 2) := by positivity
    linarith
  have hs : 1 ≤ Real.sqrt (U + (dt * 1) * v).nsq := Real.one_le_sqrt.mpr hn
  have ez : ((U + (dt * 1) * v).normalize).z = (U.z + dt * v.z) / Real.sqrt (U + (dt * 1) * v).nsq := by
    unfold V3.normalize
    rw [if_pos (by linarith)]
    simp only [V3.smul_z, V3.add_z, mul_one]
    field_simp
  have hnum : 0 ≤ U.z + dt * v.z := by positivity
  rw [ez]
  refine ⟨div_nonneg hnum (by linarith), (div_le_self hnum hs).trans ?_⟩
  nlinarith [mul_le_mul_of_nonneg_left hv1 hdt.le]

/-- the magnetization along the field, compared with the motion in a field which lags by half of the smallest step -/
def Lags (d t z : ℝ) : Prop := 0 ≤ z ∧ z ≤ Z (t ^ 2 / 4 - d / 10 * t / 4) + d * t ^ 3 / 6 ∧ (t = 0 ∨ d / 10 ≤ t)

theorem lags_step {d t dt z z' : ℝ} (hd : 0 < d) (hd1 : d ≤ 1) (ht : 0 ≤ t) (ht1 : t ≤ 1 / 2) (h1 : d / 10 ≤ dt) (h2 : dt ≤ 2 * d) (hz1 : z ≤ 1) (h : Lags d t z)
    (hz0 : 0 ≤ z') (hz' : z' ≤ z + t * dt / 2 * (1 - z ^ 2)) : Lags d (t + dt) z' := by
  obtain ⟨hz, hle, hor⟩ := h
  have hdt : 0 < dt := by linarith
  refine ⟨hz0, ?_, Or.inr (by linarith)⟩
  obtain ⟨x, hx⟩ : ∃ x, x = t ^ 2 / 4 - d / 10 * t / 4 := ⟨_, rfl⟩
  obtain ⟨q, hq⟩ : ∃ q, q = t * dt / 2 := ⟨_, rfl⟩
  rw [← hx] at hle
  rw [← hq] at hz'
  have hq0 : 0 ≤ q := by rw [hq]; positivity
  have hq1 : q ≤ 1 / 2 := by rw [hq]; nlinarith
  have hmono : Z (x + q) ≤ Z ((t + dt) ^ 2 / 4 - d / 10 * (t + dt) / 4) := by
    have := (Z_diff (show x + q ≤ (t + dt) ^ 2 / 4 - d / 10 * (t + dt) / 4 by rw [hx, hq]; nlinarith)).1
    linarith
  have htay := Z_taylor (x := x) hq0
  have hq2 : q ^ 2 ≤ d * t ^ 2 * dt / 2 := by
    rw [hq]
    have : 0 ≤ t ^ 2 * dt := by positivity
    nlinarith [mul_le_mul_of_nonneg_left h2 this]
  have hE : d * t ^ 3 / 6 + d * t ^ 2 * dt / 2 ≤ d * (t + dt) ^ 3 / 6 := by
    have : 0 ≤ d * (3 * t * dt ^ 2 + dt ^ 3) := by positivity
    nlinarith
  have hE0 : 0 ≤ d * t ^ 3 / 6 := by positivity
  have hl := Z_lt x
  have hg := Z_gt x
  have hmain : z + q * (1 - z ^ 2) ≤ Z x + q * (1 - Z x ^ 2) + d * t ^ 3 / 6 := by
    have e : z + q * (1 - z ^ 2) - (Z x + q * (1 - Z x ^ 2)) = (z - Z x) * (1 - q * (z + Z x)) := by ring
    have hf : 0 ≤ 1 - q * (z + Z x) := by
      have : q * (z + Z x) ≤ q * 2 := mul_le_mul_of_nonneg_left (by linarith) hq0
      linarith
    rcases le_total z (Z x) with hc | hc
    · have := mul_nonpos_of_nonpos_of_nonneg (sub_nonpos.mpr hc) hf
      linarith
    · have hqz : 0 ≤ q * (z + Z x) := by
        rcases hor with h0 | h0
        · rw [hq, h0]; norm_num
        · have hx0 : 0 ≤ x := by rw [hx]; nlinarith
          have := (Z_diff hx0).1
          rw [Z_zero] at this
          exact mul_nonneg hq0 (by linarith)
      have : (z - Z x) * (1 - q * (z + Z x)) ≤ (z - Z x) * 1 := mul_le_mul_of_nonneg_left (by linarith) (sub_nonneg.mpr hc)
      linarith
  linarith

/-- the error at the time 1/4 -/
theorem lags_error {d z : ℝ} (hd : 0 < d) (hd1 : d ≤ 1 / 100) (h : Lags d (1 / 4) z) : d / 1000 ≤ Z ((1 / 4) ^ 2 / 4) - z := by
  obtain ⟨-, hle, -⟩ := h
  have ha : (0 : ℝ) ≤ (1 / 4) ^ 2 / 4 - d / 10 * (1 / 4) / 4 := by linarith
  have h1 := Z_diff ha
  rw [Z_zero] at h1
  have h2 := Z_taylor (x := (1 / 4) ^ 2 / 4 - d / 10 * (1 / 4) / 4) (q := d / 160) (by positivity)
  rw [show (1 / 4) ^ 2 / 4 - d / 10 * (1 / 4) / 4 + d / 160 = ((1 : ℝ) / 4) ^ 2 / 4 by ring] at h2
  generalize Z ((1 / 4) ^ 2 / 4 - d / 10 * (1 / 4) / 4) = a at *
  generalize Z ((1 / 4) ^ 2 / 4) = c at *
  have ha2 : a ^ 2 ≤ 1 / 64 := by nlinarith
  have h3 : d / 160 * a ^ 2 ≤ d / 160 * (1 / 64) := mul_le_mul_of_nonneg_left ha2 (by positivity)
  nlinarith

end Verif.MacroSpin
