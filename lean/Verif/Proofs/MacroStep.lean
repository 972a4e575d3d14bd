import Verif.Proofs.MacroSpin

/-!
# Local error of a time step of a uniform magnetization
-/

namespace Verif.MacroSpin

open Verif.SemiDiscrete Verif.SemiDiscrete.Setting Verif.WeakForm Verif.Tetra Set

abbrev E := Fin 3 → ℝ

def vec (c : E) : V3 := ⟨c 0, c 1, c 2⟩

theorem co_vec (c : E) : co (vec c) = c := by
  funext k
  fin_cases k <;> rfl

theorem vec_co (u : V3) : vec (co u) = u := rfl

theorem smooth_vec {Z : Type*} [NormedAddCommGroup Z] [NormedSpace ℝ Z] {c : Z → E} (hc : ContDiff ℝ 1 c) : SmoothV fun z => vec (c z) :=
  have e := contDiff_pi.mp hc
  ⟨e 0, e 1, e 2⟩

theorem smooth_co {Z : Type*} [NormedAddCommGroup Z] [NormedSpace ℝ Z] {f : Z → V3} (hf : SmoothV f) : ContDiff ℝ 1 fun z => co (f z) := by
  refine contDiff_pi.mpr fun k => ?_
  fin_cases k
  · exact hf.x
  · exact hf.y
  · exact hf.z

section
variable (b : Body) {Z : Type*} [NormedAddCommGroup Z] [NormedSpace ℝ Z] {u h w : Z → V3}

theorem smooth_lin (hw : SmoothV w) : SmoothV fun z => b.lin (w z) := by
  have hr : ∀ r : V3, ContDiff ℝ 1 fun z => r.dot (w z) := fun r => (SmoothV.const r).dot hw
  have h1 : SmoothV fun z => b.N.app (w z) := ⟨hr _, hr _, hr _⟩
  exact h1.add (SmoothV.smul (contDiff_const.mul (hr _)) (SmoothV.const _))

theorem smooth_field (hu : SmoothV u) (hh : SmoothV h) : SmoothV fun z => (b.at (h z)).field (u z) := by
  simp only [field_eq]
  exact hh.add (smooth_lin b hu)

theorem smooth_rhs (hu : SmoothV u) (hh : SmoothV h) : SmoothV fun z => (b.at (h z)).rhs (u z) := by
  have hf := smooth_field b hu hh
  exact SmoothV.smul (c := fun _ => b.gamma / (1 + b.alpha ^ 2)) contDiff_const ((SmoothV.smul (c := fun _ => b.alpha) contDiff_const (hf.sub (SmoothV.smul (hu.dot hf) hu))).sub (hu.cross hf))

theorem smooth_acc (hu : SmoothV u) (hh : SmoothV h) : SmoothV fun z => (b.at (h z)).acc (u z) := by
  have hf := smooth_field b hu hh
  have hr := smooth_rhs b hu hh
  have hl := smooth_lin b hr
  exact SmoothV.smul (c := fun _ => b.gamma / (1 + b.alpha ^ 2)) contDiff_const ((SmoothV.smul (c := fun _ => b.alpha) contDiff_const (hl.sub ((SmoothV.smul ((hr.dot hf).add (hu.dot hl)) hu).add
    (SmoothV.smul (hu.dot hf) hr)))).sub ((hr.cross hf).add (hu.cross hl)))

end

theorem unit_ball {u : V3} (hu : u.dot u = 1) : ‖co u‖ ≤ 1 := by
  have := norm_co_sq u
  rw [hu] at this
  nlinarith [norm_nonneg (co u)]

/-- a field of vectors which depends smoothly on the magnetization and on the applied field is bounded and Lipschitz -/
theorem bounded {F : V3 → V3 → V3} (hF : SmoothV fun z : E × E => F (vec z.1) (vec z.2)) (B : ℝ) :
    ∃ K, 0 < K ∧ (∀ u h, ‖co u‖ ≤ 1 → ‖co h‖ ≤ B → ‖co (F u h)‖ ≤ K) ∧
      ∀ u u' h, ‖co u‖ ≤ 1 → ‖co u'‖ ≤ 1 → ‖co h‖ ≤ B → ‖co (F u' h) - co (F u h)‖ ≤ K * ‖co u' - co u‖ := by
  have hK : IsCompact (Metric.closedBall (0 : E) 1 ×ˢ Metric.closedBall (0 : E) B) := (isCompact_closedBall _ _).prod (isCompact_closedBall _ _)
  have hs := smooth_co hF
  obtain ⟨L, hL, hlip⟩ := OneStep.lipschitz_of_contDiff hs hK ((convex_closedBall _ _).prod (convex_closedBall _ _))
  obtain ⟨M, hM⟩ := hK.exists_bound_of_continuousOn hs.continuous.continuousOn
  have hm : ∀ u h, ‖co u‖ ≤ 1 → ‖co h‖ ≤ B → ((co u, co h) : E × E) ∈ Metric.closedBall (0 : E) 1 ×ˢ Metric.closedBall (0 : E) B :=
    fun u h hu hh => ⟨mem_closedBall_zero_iff.mpr hu, mem_closedBall_zero_iff.mpr hh⟩
  refine ⟨max L M, lt_max_of_lt_left hL, fun u h hu hh => (hM _ (hm u h hu hh)).trans (le_max_right _ _), fun u u' h hu hu' hh => ?_⟩
  refine (hlip _ (hm u h hu hh) _ (hm u' h hu' hh)).trans ?_
  rw [Prod.mk_sub_mk, sub_self, Prod.norm_def, norm_zero, max_eq_left (norm_nonneg _)]
  exact mul_le_mul_of_nonneg_right (le_max_left _ _) (norm_nonneg _)

theorem co_tang_le {u : V3} (hu : u.dot u = 1) (z : V3) : ‖co (tang u z)‖ ≤ 4 * ‖co z‖ := by
  unfold tang
  rw [co_sub, co_smul]
  refine (norm_sub_le _ _).trans ?_
  rw [norm_smul, Real.norm_eq_abs]
  have h1 := abs_dot_le u z
  have h2 := unit_ball hu
  have h3 : |u.dot z| * ‖co u‖ ≤ 3 * ‖co z‖ := by
    have h4 : |u.dot z| ≤ 3 * ‖co z‖ := h1.trans (by nlinarith [norm_nonneg (co z)])
    calc _ ≤ 3 * ‖co z‖ * 1 := mul_le_mul h4 h2 (norm_nonneg _) (by positivity)
      _ = _ := mul_one _
  linarith

theorem lin_bound (b : Body) : ∃ K, 0 < K ∧ ∀ w, ‖co (b.lin w)‖ ≤ K * ‖co w‖ := by
  have h := smooth_lin b (smooth_vec (Z := E) contDiff_id)
  have hc : ∀ k, ∃ K, 0 < K ∧ ∀ w : V3, |co (b.lin w) k| ≤ K * ‖co w‖ := by
    intro k
    obtain ⟨K, hK, hb⟩ := hom_bound (Z := ℝ) (E := E) (f := fun z => co (b.lin (vec z.2)) k) (K := {0})
      ((contDiff_pi.mp (smooth_co (smooth_lin b (smooth_vec contDiff_snd))) k).continuous) isCompact_singleton (fun z a w => by
        have e : vec (a • w) = a * vec w := by ext <;> simp [vec]
        dsimp only
        rw [e, lin_smul, co_smul]
        rfl)
    exact ⟨K, hK, fun w => by simpa [vec_co] using hb 0 rfl (co w)⟩
  choose K hK hb using hc
  refine ⟨K 0 + K 1 + K 2, by linarith [hK 0, hK 1, hK 2], fun w => ?_⟩
  have hw := norm_nonneg (co w)
  refine (pi_norm_le_iff_of_nonneg (mul_nonneg (by linarith [hK 0, hK 1, hK 2]) hw)).mpr fun k => ?_
  rw [Real.norm_eq_abs]
  refine (hb k w).trans (mul_le_mul_of_nonneg_right ?_ hw)
  fin_cases k <;> simp <;> linarith [hK 0, hK 1, hK 2]

/-- the effective damping to second order -/
theorem alphaEff_close2 {g dt a h Hb : ℝ} (hg : 0 < g) (hdt : 0 < dt) (ha : 0 < a) (hh : |h| ≤ Hb) (hsmall : g * dt * Hb ≤ 2 * a * (1 / 10)) :
    |alphaEff g dt a h - a - g * dt / 2 * h| ≤ g ^ 2 / (4 * a) * Hb ^ 2 * dt ^ 2 := by
  have hr : 0 < g * dt := mul_pos hg hdt
  have hHb : 0 ≤ Hb := (abs_nonneg h).trans hh
  have hM : Hb ≤ 2 * a * (1 / 10) / (g * dt) := by
    rw [le_div_iff₀ hr]
    linarith
  set M := 2 * a * (1 / 10) / (g * dt) with hMd
  have hr0 : 0 ≤ g ^ 2 / (4 * a) * Hb ^ 2 * dt ^ 2 := by positivity
  have hx : ∀ q : ℝ, 0 ≤ q → |a / (1 + q) - a + a * q| ≤ a * q ^ 2 := by
    intro q hq
    have h1 : (0 : ℝ) < 1 + q := by linarith
    have e : a / (1 + q) - a + a * q = a * q ^ 2 / (1 + q) := by field_simp; ring
    rw [e, abs_of_nonneg (by positivity)]
    exact div_le_self (by positivity) (by linarith)
  unfold alphaEff
  dsimp only
  rw [← hMd]
  rw [abs_le] at hh
  split_ifs with h1 h2 h3
  · exfalso; linarith
  · have e : a + g * dt / 2 * h - a - g * dt / 2 * h = 0 := by ring
    rw [e, abs_zero]
    exact hr0
  · exfalso; linarith
  · have hq : 0 ≤ -(g * dt / (2 * a) * h) := by
      have := not_lt.mp h1
      have : 0 ≤ g * dt / (2 * a) * (-h) := mul_nonneg (by positivity) (by linarith)
      linarith
    have := hx _ hq
    have e : a / (1 - g * dt / (2 * a) * h) - a - g * dt / 2 * h = a / (1 + -(g * dt / (2 * a) * h)) - a + a * -(g * dt / (2 * a) * h) := by
      have : a * -(g * dt / (2 * a) * h) = -(g * dt / 2 * h) := by field_simp
      rw [this, ← sub_eq_add_neg, ← sub_eq_add_neg]
    rw [e]
    refine this.trans ?_
    have e2 : a * (-(g * dt / (2 * a) * h)) ^ 2 = g ^ 2 / (4 * a) * h ^ 2 * dt ^ 2 := by field_simp; ring
    rw [e2]
    have h3 : h ^ 2 ≤ Hb ^ 2 := by nlinarith
    gcongr

/-- the normalization to second order -/
theorem normalize_close2 (u x : V3) (hu : u.dot u = 1) (hx : x.dot u = 0) :
    ‖co ((u + x).normalize - (u + x - (x.dot x / 2) * u))‖ ≤ x.dot x ^ 2 + x.dot x / 2 * ‖co x‖ := by
  have hn : (u + x).nsq = 1 + x.dot x := by
    have hu' : u.x * u.x + u.y * u.y + u.z * u.z = 1 := hu
    have hx' : x.x * u.x + x.y * u.y + x.z * u.z = 0 := hx
    simp only [V3.nsq, V3.dot, V3.add_x, V3.add_y, V3.add_z]
    linear_combination hu' + 2 * hx'
  have h0 : 0 ≤ x.dot x := by
    simp only [V3.dot]
    nlinarith [mul_self_nonneg x.x, mul_self_nonneg x.y, mul_self_nonneg x.z]
  have hpos : 0 < (u + x).nsq := by rw [hn]; linarith
  unfold V3.normalize
  rw [if_pos hpos, hn]
  set s := x.dot x with hs
  have hr : Real.sqrt (1 + s) ^ 2 = 1 + s := Real.sq_sqrt (by linarith)
  set r := Real.sqrt (1 + s) with hrd
  have hr1 : 1 ≤ r := by rw [hrd]; exact Real.one_le_sqrt.mpr (by linarith)
  have hs' : s = r ^ 2 - 1 := by linarith
  have e : (1 / r) * (u + x) - (u + x - (s / 2) * u) = (1 / r - 1 + s / 2) * u + (1 / r - 1) * x := by
    ext <;> simp only [V3.sub_x, V3.sub_y, V3.sub_z, V3.add_x, V3.add_y, V3.add_z, V3.smul_x, V3.smul_y, V3.smul_z] <;> ring
  rw [e, co_add, co_smul, co_smul]
  refine (norm_add_le _ _).trans ?_
  rw [norm_smul, norm_smul, Real.norm_eq_abs, Real.norm_eq_abs]
  have hrp : 0 < r := by linarith
  have h1 : |1 / r - 1 + s / 2| ≤ s ^ 2 := by
    have e1 : 1 / r - 1 + s / 2 = (r - 1) ^ 2 * (r + 2) / (2 * r) := by
      rw [hs']
      field_simp
      ring
    rw [e1, abs_of_nonneg (by positivity), div_le_iff₀ (by positivity), hs']
    have e2 : (r ^ 2 - 1) ^ 2 = (r - 1) ^ 2 * (r + 1) ^ 2 := by ring
    rw [e2, mul_assoc]
    refine mul_le_mul_of_nonneg_left ?_ (sq_nonneg _)
    nlinarith
  have h2 : |1 / r - 1| ≤ s / 2 := by
    have : 1 / r ≤ 1 := by rw [div_le_one hrp]; exact hr1
    rw [abs_of_nonpos (by linarith), neg_sub, hs']
    have e3 : 1 - 1 / r = (r - 1) / r := by field_simp
    rw [e3, div_le_iff₀ hrp]
    nlinarith
  have h3 : |1 / r - 1 + s / 2| * ‖co u‖ ≤ s ^ 2 * 1 := mul_le_mul h1 (unit_ball hu) (norm_nonneg _) (sq_nonneg _)
  have h4 : |1 / r - 1| * ‖co x‖ ≤ s / 2 * ‖co x‖ := mul_le_mul_of_nonneg_right h2 (norm_nonneg _)
  linarith

/-! ## one step -/

/-- the velocity of a time step: the field is that of the magnetization extrapolated with the velocity `W` of the previous step -/
def Body.Step (b : Body) (dt : ℝ) (u W v : V3) : Prop :=
  v = -(u.cross (b.field u + (dt / 2) * b.lin W)) + alphaEff b.gamma dt b.alpha (u.dot (b.field u)) * u.cross v

theorem step_tang {u F v : V3} {a : ℝ} (h : v = -(u.cross F) + a * u.cross v) : u.dot v = 0 := by
  rw [h]
  v3_ring
  ring

theorem step_implicit {u F v : V3} {a : ℝ} (hu : u.dot u = 1) (h : v = -(u.cross F) + a * u.cross v) :
    a * v + u.cross v = tang u F := by
  have hu' : u.x * u.x + u.y * u.y + u.z * u.z = 1 := hu
  have hv := step_tang h
  have hv' : u.x * v.x + u.y * v.y + u.z * v.z = 0 := hv
  have hx := congrArg V3.x h
  have hy := congrArg V3.y h
  have hz := congrArg V3.z h
  unfold tang
  simp only [V3.cross, V3.add_x, V3.add_y, V3.add_z, V3.smul_x, V3.smul_y, V3.smul_z, V3.neg_x, V3.neg_y, V3.neg_z] at hx hy hz
  ext
  · v3_ring
    linear_combination u.y * hz - u.z * hy + (a * u.x) * hv' + (F.x - a * v.x) * hu'
  · v3_ring
    linear_combination u.z * hx - u.x * hz + (a * u.y) * hv' + (F.y - a * v.y) * hu'
  · v3_ring
    linear_combination u.x * hy - u.y * hx + (a * u.z) * hv' + (F.z - a * v.z) * hu'

/-- the equation of the difference between the velocity of the step and the second order expansion of the solution -/
theorem step_residual (b : Body) (hg : b.gamma ≠ 0) {dt : ℝ} {u W v : V3} (hu : u.dot u = 1) (h : b.Step dt u W v) :
    let a := alphaEff b.gamma dt b.alpha (u.dot (b.field u))
    let x := v - (1 / b.gamma) * b.rhs u - (dt / (2 * b.gamma)) * tang u (b.acc u)
    u.dot x = 0 ∧ a * x + u.cross x = (dt / 2) * tang u (b.lin (W - b.rhs u))
      - ((a - b.alpha - b.gamma * dt / 2 * u.dot (b.field u)) / b.gamma) * b.rhs u
      - (dt / (2 * b.gamma) * (a - b.alpha)) * tang u (b.acc u) := by
  intro a x
  have h1 := step_implicit hu h
  have h2 := rhs_implicit b hu
  have h3 := acc_implicit b hu
  have hv := step_tang h
  have hf := rhs_tang b hu
  constructor
  · have hu' : u.x * u.x + u.y * u.y + u.z * u.z = 1 := hu
    change u.dot (v - (1 / b.gamma) * b.rhs u - (dt / (2 * b.gamma)) * tang u (b.acc u)) = 0
    unfold tang
    generalize b.acc u = A
    generalize b.rhs u = f at *
    simp only [V3.dot] at hv hf
    v3_ring
    linear_combination hv - 1 / b.gamma * hf + (dt / (2 * b.gamma) * (u.x * A.x + u.y * A.y + u.z * A.z)) * hu'
  · change a * (v - (1 / b.gamma) * b.rhs u - (dt / (2 * b.gamma)) * tang u (b.acc u))
      + u.cross (v - (1 / b.gamma) * b.rhs u - (dt / (2 * b.gamma)) * tang u (b.acc u)) = _
    have e1 : a * (v - (1 / b.gamma) * b.rhs u - (dt / (2 * b.gamma)) * tang u (b.acc u))
        + u.cross (v - (1 / b.gamma) * b.rhs u - (dt / (2 * b.gamma)) * tang u (b.acc u)) =
        (a * v + u.cross v) - (1 / b.gamma) * (b.alpha * b.rhs u + u.cross (b.rhs u)) - ((a - b.alpha) / b.gamma) * b.rhs u
        - (dt / (2 * b.gamma)) * (b.alpha * tang u (b.acc u) + u.cross (tang u (b.acc u)))
        - (dt / (2 * b.gamma) * (a - b.alpha)) * tang u (b.acc u) := by
      ext <;> v3_ring <;> ring
    rw [e1, h1, h2, h3, lin_sub]
    generalize tang u (b.acc u) = A
    unfold tang
    ext <;> v3_ring <;> field_simp <;> ring

theorem norm_of_dot {x r : V3} (h : x.dot x ≤ r.dot r) : ‖co x‖ ≤ 2 * ‖co r‖ := by
  have h1 := norm_co_sq x
  have h2 := (le_abs_self _).trans (abs_dot_le r r)
  have h3 := norm_nonneg (co r)
  refine (abs_le_of_sq_le_sq' ?_ (by linarith)).2
  nlinarith [mul_nonneg h3 h3]

/-- the step in terms of the difference between its velocity and the second order expansion -/
theorem expand {u f A v x : V3} {g dt Kr Ka c3 c4 Vb R : ℝ} (hg : 0 < g) (hdt : 0 < dt) (hdt1 : dt ≤ 1) (hu : u.dot u = 1) (hvt : u.dot v = 0)
    (hacn : u.dot A = -f.dot f) (hKr : ‖co f‖ ≤ Kr) (hKa : ‖co A‖ ≤ Ka) (hc3 : 0 ≤ c3)
    (hx : x = v - (1 / g) * f - (dt / (2 * g)) * tang u A) (hR : ‖co x‖ ≤ R) (hx3 : ‖co x‖ ≤ c3 * dt)
    (hc4 : c4 = g * c3 + 2 * Ka) (hVb : Vb = Kr + c4) :
    ‖co (g * v - f)‖ ≤ c4 * dt ∧ ‖co ((u + (dt * g) * v).normalize) - co u‖ ≤ dt * (3 / 2 * Vb ^ 2 + Vb) ∧
    ‖co ((u + (dt * g) * v).normalize) - co u - dt • co f - (dt ^ 2 / 2) • co A‖ ≤
      dt ^ 3 * (9 * Vb ^ 4 + 3 / 2 * Vb ^ 3) + dt * g * R + dt ^ 3 * (3 / 2 * (c4 * (Kr + Vb))) ∧
    ((u + (dt * g) * v).normalize).dot ((u + (dt * g) * v).normalize) = 1 := by
  have hub := unit_ball hu
  have hKr0 : 0 ≤ Kr := (norm_nonneg _).trans hKr
  have hKa0 : 0 ≤ Ka := (norm_nonneg _).trans hKa
  have hc4p : 0 ≤ c4 := by rw [hc4]; positivity
  have hVbp : 0 ≤ Vb := by rw [hVb]; positivity
  have htA : ‖co (tang u A)‖ ≤ 4 * Ka := (co_tang_le hu A).trans (by linarith)
  have hvx : g * v - f = g * x + (dt / 2) * tang u A := by
    rw [hx]
    generalize tang u A = z
    ext <;> simp only [V3.sub_x, V3.sub_y, V3.sub_z, V3.add_x, V3.add_y, V3.add_z, V3.smul_x, V3.smul_y, V3.smul_z] <;> field_simp <;> ring
  have hv4 : ‖co (g * v - f)‖ ≤ c4 * dt := by
    rw [hvx, co_add, co_smul, co_smul]
    refine (norm_add_le _ _).trans ?_
    rw [norm_smul, norm_smul, Real.norm_of_nonneg hg.le, Real.norm_of_nonneg (by positivity)]
    have h1 := mul_le_mul_of_nonneg_left hx3 hg.le
    have h2 := mul_le_mul_of_nonneg_left htA (show 0 ≤ dt / 2 by positivity)
    rw [hc4]
    linarith
  have hgv : ‖co (g * v)‖ ≤ Vb := by
    have e1 : g * v = (g * v - f) + f := by ext <;> simp
    rw [e1, co_add]
    refine (norm_add_le _ _).trans ?_
    rw [hVb]
    nlinarith
  set X := (dt * g) * v with hX
  have eX : X = dt * (g * v) := by ext <;> simp only [hX, V3.smul_x, V3.smul_y, V3.smul_z] <;> ring
  have hXt : X.dot u = 0 := by
    rw [hX, smul_dot, V3.dot_comm, hvt, mul_zero]
  have hXb : ‖co X‖ ≤ dt * Vb := by
    rw [eX, co_smul, norm_smul, Real.norm_of_nonneg hdt.le]
    exact mul_le_mul_of_nonneg_left hgv hdt.le
  have hXX : X.dot X ≤ 3 * (dt ^ 2 * Vb ^ 2) := by
    refine (le_abs_self _).trans ((SemiDiscrete.abs_dot_le X X).trans ?_)
    have := mul_le_mul hXb hXb (norm_nonneg _) (by positivity)
    nlinarith
  have hXX0 : 0 ≤ X.dot X := by
    simp only [V3.dot]
    nlinarith [mul_self_nonneg X.x, mul_self_nonneg X.y, mul_self_nonneg X.z]
  have hdt2 : dt ^ 2 ≤ dt := by nlinarith
  refine ⟨hv4, ?_, ?_, ?_⟩
  · have k2 := normalize_close u X hu hXt
    have e2 : co (u + X).normalize - co u = co ((u + X).normalize - (u + X)) + co X := by
      rw [co_sub, co_add]
      abel
    rw [e2]
    refine (norm_add_le _ _).trans ?_
    have : dt ^ 2 * Vb ^ 2 ≤ dt * Vb ^ 2 := mul_le_mul_of_nonneg_right hdt2 (sq_nonneg _)
    linarith
  · have hmain : co (u + X).normalize - co u - dt • co f - (dt ^ 2 / 2) • co A =
        co ((u + X).normalize - (u + X - (X.dot X / 2) * u)) + (dt * g) • co x
          + (dt ^ 2 / 2 * (f - g * v).dot (f + g * v)) • co u := by
      have eA : tang u A = A + (f.dot f) * u := by
        unfold tang
        rw [hacn]
        ext <;> simp only [V3.sub_x, V3.sub_y, V3.sub_z, V3.add_x, V3.add_y, V3.add_z, V3.smul_x, V3.smul_y, V3.smul_z] <;> ring
      have e1 : (f - g * v).dot (f + g * v) = f.dot f - g ^ 2 * v.dot v := by
        v3_ring
        ring
      have e2 : X.dot X = dt ^ 2 * (g ^ 2 * v.dot v) := by
        rw [hX]
        v3_ring
        ring
      rw [e1, e2, hx, eA, ← co_smul, ← co_smul, ← co_smul, ← co_smul, ← co_sub, ← co_sub, ← co_sub, ← co_add, ← co_add]
      congr 1
      generalize (u + X).normalize = z
      rw [hX]
      generalize f.dot f = ff
      generalize v.dot v = vv
      clear * - hg
      ext <;> simp only [V3.sub_x, V3.sub_y, V3.sub_z, V3.add_x, V3.add_y, V3.add_z, V3.smul_x, V3.smul_y, V3.smul_z] <;> field_simp <;> ring
    rw [hmain]
    refine (norm_add_le _ _).trans ((add_le_add_left (norm_add_le _ _) _).trans ?_)
    have m1 := normalize_close2 u X hu hXt
    have m2 : X.dot X ^ 2 + X.dot X / 2 * ‖co X‖ ≤ dt ^ 3 * (9 * Vb ^ 4 + 3 / 2 * Vb ^ 3) := by
      have k1 : X.dot X ^ 2 ≤ (3 * (dt ^ 2 * Vb ^ 2)) ^ 2 := by gcongr
      have k2 : X.dot X / 2 * ‖co X‖ ≤ 3 * (dt ^ 2 * Vb ^ 2) / 2 * (dt * Vb) := by gcongr
      have k3 : dt ^ 4 ≤ dt ^ 3 := pow_le_pow_of_le_one hdt.le hdt1 (by norm_num)
      have k4 : (0 : ℝ) ≤ 9 * Vb ^ 4 := by positivity
      have k5 := mul_le_mul_of_nonneg_right k3 k4
      have e1 : (3 * (dt ^ 2 * Vb ^ 2)) ^ 2 = dt ^ 4 * (9 * Vb ^ 4) := by ring
      have e2 : 3 * (dt ^ 2 * Vb ^ 2) / 2 * (dt * Vb) = dt ^ 3 * (3 / 2 * Vb ^ 3) := by ring
      rw [mul_add]
      linarith
    have m3 : ‖(dt * g) • co x‖ ≤ dt * g * R := by
      rw [norm_smul, Real.norm_of_nonneg (by positivity)]
      exact mul_le_mul_of_nonneg_left hR (by positivity)
    have m4 : ‖(dt ^ 2 / 2 * (f - g * v).dot (f + g * v)) • co u‖ ≤ dt ^ 3 * (3 / 2 * (c4 * (Kr + Vb))) := by
      rw [norm_smul, Real.norm_eq_abs, abs_mul, abs_of_pos (by positivity)]
      have k1 := SemiDiscrete.abs_dot_le (f - g * v) (f + g * v)
      have k2 : ‖co (f - g * v)‖ ≤ c4 * dt := by
        rw [co_sub, norm_sub_rev, ← co_sub]
        exact hv4
      have k3 : ‖co (f + g * v)‖ ≤ Kr + Vb := by
        rw [co_add]
        exact (norm_add_le _ _).trans (add_le_add hKr hgv)
      have k4 : ‖co (f - g * v)‖ * ‖co (f + g * v)‖ ≤ c4 * dt * (Kr + Vb) :=
        mul_le_mul k2 k3 (norm_nonneg _) (by positivity)
      have k5 : |(f - g * v).dot (f + g * v)| ≤ 3 * (c4 * dt * (Kr + Vb)) := by linarith
      calc _ ≤ dt ^ 2 / 2 * (3 * (c4 * dt * (Kr + Vb))) * 1 :=
            mul_le_mul (mul_le_mul_of_nonneg_left k5 (by positivity)) hub (norm_nonneg _) (by positivity)
        _ = _ := by ring
    linarith
  · have hn : 0 < (u + X).nsq := by
      have hu1' : u.x * u.x + u.y * u.y + u.z * u.z = 1 := hu
      have hx' : X.x * u.x + X.y * u.y + X.z * u.z = 0 := hXt
      have : (u + X).nsq = 1 + X.dot X := by
        simp only [V3.nsq, V3.dot, V3.add_x, V3.add_y, V3.add_z]
        linear_combination hu1' + 2 * hx'
      linarith
    exact V3.nsq_normalize hn

/-- the velocity of a step is close to the second order expansion -/
theorem residual_bound (b : Body) (hg : 0 < b.gamma) (ha : 0 < b.alpha) {KL Hb Kr Ka dt : ℝ} {u W v : V3} (hLb : ∀ w, ‖co (b.lin w)‖ ≤ KL * ‖co w‖)
    (hu : u.dot u = 1) (hdt : 0 < dt) (hsmall : b.gamma * dt * Hb ≤ 2 * b.alpha * (1 / 10))
    (hpar : |u.dot (b.field u)| ≤ Hb) (hKr : ‖co (b.rhs u)‖ ≤ Kr) (hKa : ‖co (b.acc u)‖ ≤ Ka) (h : b.Step dt u W v) :
    ‖co (v - (1 / b.gamma) * b.rhs u - (dt / (2 * b.gamma)) * tang u (b.acc u))‖ ≤
      2 * (2 * KL * dt * ‖co (W - b.rhs u)‖ + (b.gamma / (4 * b.alpha) * Hb ^ 2 * Kr + Hb * Ka) * dt ^ 2) := by
  obtain ⟨hxt, hxe⟩ := step_residual b hg.ne' hu h
  have ha1 := alphaEff_close (h := u.dot (b.field u)) hg hdt ha
  have ha2 := alphaEff_close2 hg hdt ha hpar hsmall
  have hHb : 0 ≤ Hb := (abs_nonneg _).trans hpar
  have hKr0 : 0 ≤ Kr := (norm_nonneg _).trans hKr
  generalize alphaEff b.gamma dt b.alpha (u.dot (b.field u)) = a at *
  refine (norm_of_dot (image_norm hu hxt hxe)).trans (mul_le_mul_of_nonneg_left ?_ two_pos.le)
  have htA : ‖co (tang u (b.acc u))‖ ≤ 4 * Ka := (co_tang_le hu _).trans (by linarith)
  rw [co_sub, co_sub, co_smul, co_smul, co_smul]
  refine (norm_sub_le _ _).trans ?_
  have n1 : ‖(dt / 2) • co (tang u (b.lin (W - b.rhs u)))‖ ≤ 2 * KL * dt * ‖co (W - b.rhs u)‖ := by
    rw [norm_smul, Real.norm_of_nonneg (by positivity)]
    have := (co_tang_le hu (b.lin (W - b.rhs u))).trans (mul_le_mul_of_nonneg_left (hLb (W - b.rhs u)) (by norm_num))
    calc _ ≤ dt / 2 * (4 * (KL * ‖co (W - b.rhs u)‖)) := mul_le_mul_of_nonneg_left this (by positivity)
      _ = _ := by ring
  have n2 : ‖((a - b.alpha - b.gamma * dt / 2 * u.dot (b.field u)) / b.gamma) • co (b.rhs u)‖ ≤
      b.gamma / (4 * b.alpha) * Hb ^ 2 * Kr * dt ^ 2 := by
    rw [norm_smul, Real.norm_eq_abs, abs_div, abs_of_pos hg]
    have h1 : |a - b.alpha - b.gamma * dt / 2 * u.dot (b.field u)| / b.gamma ≤ b.gamma / (4 * b.alpha) * Hb ^ 2 * dt ^ 2 := by
      rw [div_le_iff₀ hg]
      refine ha2.trans (le_of_eq ?_)
      ring
    calc _ ≤ b.gamma / (4 * b.alpha) * Hb ^ 2 * dt ^ 2 * Kr := mul_le_mul h1 hKr (norm_nonneg _) (by positivity)
      _ = _ := by ring
  have n3 : ‖(dt / (2 * b.gamma) * (a - b.alpha)) • co (tang u (b.acc u))‖ ≤ Hb * Ka * dt ^ 2 := by
    rw [norm_smul, Real.norm_eq_abs, abs_mul, abs_of_pos (by positivity)]
    have h1 : |a - b.alpha| ≤ b.gamma * dt / 2 * Hb := ha1.trans (mul_le_mul_of_nonneg_left hpar (by positivity))
    have h2 : dt / (2 * b.gamma) * |a - b.alpha| ≤ dt ^ 2 / 4 * Hb := by
      calc _ ≤ dt / (2 * b.gamma) * (b.gamma * dt / 2 * Hb) := mul_le_mul_of_nonneg_left h1 (by positivity)
        _ = _ := by field_simp; ring
    calc _ ≤ dt ^ 2 / 4 * Hb * (4 * Ka) := mul_le_mul h2 htA (norm_nonneg _) (by positivity)
      _ = _ := by ring
  have n4 := norm_sub_le ((dt / 2) • co (tang u (b.lin (W - b.rhs u))))
    (((a - b.alpha - b.gamma * dt / 2 * u.dot (b.field u)) / b.gamma) • co (b.rhs u))
  linarith

/-- **local error of a step**, in a field of bounded strength -/
theorem local_step (b : Body) (hg : 0 < b.gamma) (ha : 0 < b.alpha) (B Q : ℝ) (hQ : 0 ≤ Q) :
    ∃ C δ, 0 < C ∧ 0 < δ ∧ δ ≤ 1 ∧ ∀ h u W v dt, ‖co h‖ ≤ B → u.dot u = 1 → 0 < dt → dt ≤ δ → ‖co (W - (b.at h).rhs u)‖ ≤ Q →
      (b.at h).Step dt u W v →
      ‖co ((u + (dt * b.gamma) * v).normalize) - co u - dt • co ((b.at h).rhs u) - (dt ^ 2 / 2) • co ((b.at h).acc u)‖ ≤
        C * dt * (dt ^ 2 + dt * ‖co (W - (b.at h).rhs u)‖) ∧
      ‖co (b.gamma * v - (b.at h).rhs (u + (dt * b.gamma) * v).normalize)‖ ≤ C * dt ∧
      ((u + (dt * b.gamma) * v).normalize).dot ((u + (dt * b.gamma) * v).normalize) = 1 := by
  have hu1 := smooth_vec (Z := E × E) contDiff_fst
  have hh1 := smooth_vec (Z := E × E) contDiff_snd
  obtain ⟨Kr, hKr, hrb, hrl⟩ := bounded (F := fun u h => (b.at h).rhs u) (smooth_rhs b hu1 hh1) B
  obtain ⟨Ka, hKa, hab, -⟩ := bounded (F := fun u h => (b.at h).acc u) (smooth_acc b hu1 hh1) B
  obtain ⟨Kf, hKf, hfb, -⟩ := bounded (F := fun u h => (b.at h).field u) (smooth_field b hu1 hh1) B
  obtain ⟨KL, hKL, hLb⟩ := lin_bound b
  obtain ⟨Hb, hHb, hHbp⟩ : ∃ Hb, Hb = 3 * Kf ∧ 0 < Hb := ⟨_, rfl, by positivity⟩
  obtain ⟨c1, hc1, hc1p⟩ : ∃ c, c = 2 * KL ∧ 0 < c := ⟨_, rfl, by positivity⟩
  obtain ⟨c2, hc2, hc2p⟩ : ∃ c, c = b.gamma / (4 * b.alpha) * Hb ^ 2 * Kr + Hb * Ka ∧ 0 < c := ⟨_, rfl, by positivity⟩
  obtain ⟨c3, hc3, hc3p⟩ : ∃ c, c = 2 * (c1 * Q + c2) ∧ 0 < c := ⟨_, rfl, by positivity⟩
  obtain ⟨c4, hc4, hc4p⟩ : ∃ c, c = b.gamma * c3 + 2 * Ka ∧ 0 < c := ⟨_, rfl, by positivity⟩
  obtain ⟨Vb, hVb, hVbp⟩ : ∃ c, c = Kr + c4 ∧ 0 < c := ⟨_, rfl, by positivity⟩
  obtain ⟨C0, hC0, hC0p⟩ : ∃ c, c = 9 * Vb ^ 4 + 3 / 2 * Vb ^ 3 + 3 / 2 * (c4 * (Kr + Vb)) ∧ 0 < c := ⟨_, rfl, by positivity⟩
  obtain ⟨C1, hC1, hC1p⟩ : ∃ c, c = C0 + 2 * b.gamma * (c1 + c2) ∧ 0 < c := ⟨_, rfl, by positivity⟩
  obtain ⟨C2, hC2, hC2p⟩ : ∃ c, c = c4 + Kr * (3 / 2 * Vb ^ 2 + Vb) ∧ 0 < c := ⟨_, rfl, by positivity⟩
  refine ⟨C1 + C2, min 1 (2 * b.alpha * (1 / 10) / (b.gamma * Hb)), by positivity, lt_min one_pos (by positivity), min_le_left _ _, ?_⟩
  intro h u W v dt hh hu hdt hdtδ hW hst
  have hub := unit_ball hu
  have hdt1 : dt ≤ 1 := hdtδ.trans (min_le_left _ _)
  have hsmall : b.gamma * dt * Hb ≤ 2 * b.alpha * (1 / 10) := by
    have := hdtδ.trans (min_le_right _ _)
    rw [le_div_iff₀ (by positivity)] at this
    linarith
  have hpar : |u.dot ((b.at h).field u)| ≤ Hb := by
    refine (SemiDiscrete.abs_dot_le _ _).trans ?_
    have := hfb u h hub hh
    rw [hHb]
    have h0 := norm_nonneg (co ((b.at h).field u))
    nlinarith
  have hrb' := hrb u h hub hh
  have hab' := hab u h hub hh
  have hxb := residual_bound (b.at h) hg ha hLb hu hdt hsmall hpar hrb' hab' hst
  change ‖co (v - (1 / b.gamma) * (b.at h).rhs u - (dt / (2 * b.gamma)) * tang u ((b.at h).acc u))‖ ≤
    2 * (2 * KL * dt * ‖co (W - (b.at h).rhs u)‖ + (b.gamma / (4 * b.alpha) * Hb ^ 2 * Kr + Hb * Ka) * dt ^ 2) at hxb
  rw [← hc1, ← hc2] at hxb
  have he0 : 0 ≤ ‖co (W - (b.at h).rhs u)‖ := norm_nonneg _
  generalize ‖co (W - (b.at h).rhs u)‖ = e at *
  have hx3 : ‖co (v - (1 / b.gamma) * (b.at h).rhs u - (dt / (2 * b.gamma)) * tang u ((b.at h).acc u))‖ ≤ c3 * dt := by
    refine hxb.trans ?_
    rw [hc3]
    have h1 : c1 * dt * e ≤ c1 * dt * Q := mul_le_mul_of_nonneg_left hW (by positivity)
    have h2 : c2 * dt ^ 2 ≤ c2 * dt := mul_le_mul_of_nonneg_left (by nlinarith) hc2p.le
    linarith
  obtain ⟨k1, k2, k3, k4⟩ := expand hg hdt hdt1 hu (step_tang hst) (acc_normal (b.at h) hu) hrb' hab' hc3p.le rfl hxb hx3 hc4 hVb
  refine ⟨k3.trans ?_, ?_, k4⟩
  · have p1 : 0 ≤ C0 * (dt ^ 2 * e) := by positivity
    have p2 : 0 ≤ b.gamma * c1 * dt ^ 3 := by positivity
    have p3 : 0 ≤ b.gamma * c2 * (dt ^ 2 * e) := by positivity
    have p4 : 0 ≤ C2 * dt * (dt ^ 2 + dt * e) := by positivity
    have e1 : dt ^ 3 * (9 * Vb ^ 4 + 3 / 2 * Vb ^ 3) + dt * b.gamma * (2 * (c1 * dt * e + c2 * dt ^ 2)) + dt ^ 3 * (3 / 2 * (c4 * (Kr + Vb)))
        = C0 * dt ^ 3 + 2 * b.gamma * c1 * (dt ^ 2 * e) + 2 * b.gamma * c2 * dt ^ 3 := by rw [hC0]; ring
    have e2 : (C1 + C2) * dt * (dt ^ 2 + dt * e) = C0 * dt ^ 3 + C0 * (dt ^ 2 * e) + 2 * b.gamma * c1 * dt ^ 3
        + 2 * b.gamma * c1 * (dt ^ 2 * e) + 2 * b.gamma * c2 * dt ^ 3 + 2 * b.gamma * c2 * (dt ^ 2 * e) + C2 * dt * (dt ^ 2 + dt * e) := by
      rw [hC1]; ring
    rw [e1, e2]
    linarith
  · generalize (u + (dt * b.gamma) * v).normalize = u' at *
    have e1 : b.gamma * v - (b.at h).rhs u' = (b.gamma * v - (b.at h).rhs u) - ((b.at h).rhs u' - (b.at h).rhs u) := by
      ext <;> simp only [V3.sub_x, V3.sub_y, V3.sub_z] <;> ring
    rw [e1, co_sub]
    refine (norm_sub_le _ _).trans ?_
    have k5 := hrl u u' h hub (unit_ball k4) hh
    rw [← co_sub] at k5
    have k6 := mul_le_mul_of_nonneg_left k2 hKr.le
    have : 0 ≤ C1 * dt := by positivity
    rw [hC2]
    have e3 : (C1 + (c4 + Kr * (3 / 2 * Vb ^ 2 + Vb))) * dt = C1 * dt + c4 * dt + Kr * (dt * (3 / 2 * Vb ^ 2 + Vb)) := by ring
    rw [e3]
    linarith

end Verif.MacroSpin
