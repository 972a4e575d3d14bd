import Verif.Spec.MacroSpin
import Verif.Proofs.StepBound
import Verif.Proofs.OneStep

/-!
# One time step of a uniform magnetization, to second order
-/

namespace Verif.OneStep

open Set

variable {X : Type*} [NormedAddCommGroup X] [NormedSpace ℝ X]

/-- first order expansion of a function whose derivative stays close to `c` -/
theorem linear_close {z z' : ℝ → X} {c : X} {K t t' : ℝ} (hle : t ≤ t') (hz : ∀ s ∈ Icc t t', HasDerivWithinAt z (z' s) (Icc t t') s)
    (hb : ∀ s ∈ Icc t t', ‖z' s - c‖ ≤ K) : ‖z t' - z t - (t' - t) • c‖ ≤ K * (t' - t) := by
  have hd : ∀ s ∈ Icc t t', HasDerivWithinAt (fun s => z s - (s - t) • c) (z' s - c) (Icc t t') s := by
    intro s hs
    have h2 : HasDerivWithinAt (fun s => (s - t) • c) ((1 : ℝ) • c) (Icc t t') s :=
      ((hasDerivWithinAt_id s (Icc t t')).sub_const t).smul_const c
    rw [one_smul] at h2
    exact (hz s hs).sub h2
  have := (convex_Icc t t').norm_image_sub_le_of_norm_hasDerivWithin_le hd hb (left_mem_Icc.mpr hle) (right_mem_Icc.mpr hle)
  simp only [sub_self, zero_smul, sub_zero] at this
  rw [Real.norm_of_nonneg (by linarith)] at this
  have e : z t' - z t - (t' - t) • c = z t' - (t' - t) • c - z t := by abel
  rwa [e]

/-- second order expansion of a solution of `y' = f y`, where `g` is the derivative of `f` along the solution -/
theorem exact_local2 {f g : X → X} {S : Set X} {t0 T L G : ℝ} (hL : 0 ≤ L)
    (hlip : ∀ u ∈ S, ∀ u' ∈ S, ‖g u' - g u‖ ≤ L * ‖u' - u‖) (hG : ∀ u ∈ S, ‖f u‖ ≤ G) {y : ℝ → X}
    (hy : ∀ t ∈ Icc t0 T, HasDerivWithinAt y (f (y t)) (Icc t0 T) t)
    (hy2 : ∀ t ∈ Icc t0 T, HasDerivWithinAt (fun t => f (y t)) (g (y t)) (Icc t0 T) t)
    (hS : ∀ t ∈ Icc t0 T, y t ∈ S) {t t' : ℝ} (ht : t ∈ Icc t0 T) (ht' : t' ∈ Icc t0 T) (hle : t ≤ t') :
    ‖y t' - y t - (t' - t) • f (y t) - ((t' - t) ^ 2 / 2) • g (y t)‖ ≤ L * G * (t' - t) ^ 3 := by
  have hG0 : 0 ≤ G := (norm_nonneg _).trans (hG _ (hS t ht))
  have hsub : ∀ {s}, s ∈ Icc t t' → Icc t s ⊆ Icc t0 T := fun hs => Icc_subset_Icc ht.1 (hs.2.trans ht'.2)
  have hself : ∀ {s}, s ∈ Icc t t' → s ∈ Icc t0 T := fun hs => ⟨ht.1.trans hs.1, hs.2.trans ht'.2⟩
  have hy1 : ∀ s ∈ Icc t t', ‖y s - y t‖ ≤ G * (s - t) := by
    intro s hs
    have := (convex_Icc t0 T).norm_image_sub_le_of_norm_hasDerivWithin_le hy (fun s hs => hG _ (hS s hs)) ht (hself hs)
    rwa [Real.norm_of_nonneg (by linarith [hs.1])] at this
  have h1 : ∀ s ∈ Icc t t', ‖f (y s) - f (y t) - (s - t) • g (y t)‖ ≤ L * G * (t' - t) * (t' - t) := by
    intro s hs
    have hlen : s - t ≤ t' - t := by linarith [hs.2]
    have hlen0 : 0 ≤ s - t := by linarith [hs.1]
    have := linear_close (z := fun s => f (y s)) (z' := fun s => g (y s)) (c := g (y t)) (K := L * (G * (t' - t))) hs.1
      (fun r hr => (hy2 r (hsub hs hr)).mono (hsub hs)) (fun r hr => by
        refine (hlip _ (hS t ht) _ (hS r (hsub hs hr))).trans (mul_le_mul_of_nonneg_left ?_ hL)
        refine (hy1 r ⟨hr.1, hr.2.trans hs.2⟩).trans (mul_le_mul_of_nonneg_left ?_ hG0)
        linarith [hr.2, hs.2])
    refine this.trans ?_
    have : 0 ≤ L * (G * (t' - t)) := mul_nonneg hL (mul_nonneg hG0 (by linarith))
    calc _ ≤ L * (G * (t' - t)) * (t' - t) := mul_le_mul_of_nonneg_left hlen this
      _ = _ := by ring
  have hsub' : Icc t t' ⊆ Icc t0 T := Icc_subset_Icc ht.1 ht'.2
  have hd : ∀ s ∈ Icc t t', HasDerivWithinAt (fun s => y s - (s - t) • f (y t) - ((s - t) ^ 2 / 2) • g (y t))
      (f (y s) - f (y t) - (s - t) • g (y t)) (Icc t t') s := by
    intro s hs
    have h2 : HasDerivWithinAt (fun s => (s - t) • f (y t)) ((1 : ℝ) • f (y t)) (Icc t t') s :=
      ((hasDerivWithinAt_id s (Icc t t')).sub_const t).smul_const _
    rw [one_smul] at h2
    have h3 : HasDerivWithinAt (fun s : ℝ => (s - t) ^ 2 / 2) (s - t) (Icc t t') s := by
      have := (((hasDerivWithinAt_id s (Icc t t')).sub_const t).pow 2).div_const 2
      refine this.congr_deriv ?_
      simp
    exact (((hy s (hsub' hs)).mono hsub').sub h2).sub (h3.smul_const _)
  have := (convex_Icc t t').norm_image_sub_le_of_norm_hasDerivWithin_le hd h1 (left_mem_Icc.mpr hle) (right_mem_Icc.mpr hle)
  simp only [sub_self, zero_smul, sub_zero] at this
  rw [Real.norm_of_nonneg (by linarith)] at this
  have e : y t' - y t - (t' - t) • f (y t) - ((t' - t) ^ 2 / 2) • g (y t) =
      y t' - (t' - t) • f (y t) - ((t' - t) ^ 2 / 2) • g (y t) - (y t - ((0 : ℝ) ^ 2 / 2) • g (y t)) := by
    simp only [ne_eq, OfNat.ofNat_ne_zero, not_false_eq_true, zero_pow, zero_div, zero_smul, sub_zero]
    abel
  rw [e]
  refine this.trans (le_of_eq ?_)
  ring

end Verif.OneStep

namespace Verif.MacroSpin

open Verif.SemiDiscrete Verif.WeakForm Verif.Tetra Set

/-! ## derivatives -/

theorem HasDeriv.dot {y z : ℝ → V3} {w v : V3} {s : Set ℝ} {t : ℝ} (h : HasDeriv y w s t) (k : HasDeriv z v s t) :
    HasDerivWithinAt (fun t => (y t).dot (z t)) (w.dot (z t) + (y t).dot v) s t := by
  refine (((h.x.mul k.x).add (h.y.mul k.y)).add (h.z.mul k.z)).congr_deriv ?_
  simp only [V3.dot]
  ring

theorem HasDeriv.add {y z : ℝ → V3} {w v : V3} {s : Set ℝ} {t : ℝ} (h : HasDeriv y w s t) (k : HasDeriv z v s t) :
    HasDeriv (fun t => y t + z t) (w + v) s t := ⟨h.x.add k.x, h.y.add k.y, h.z.add k.z⟩

theorem HasDeriv.sub {y z : ℝ → V3} {w v : V3} {s : Set ℝ} {t : ℝ} (h : HasDeriv y w s t) (k : HasDeriv z v s t) :
    HasDeriv (fun t => y t - z t) (w - v) s t := ⟨h.x.sub k.x, h.y.sub k.y, h.z.sub k.z⟩

theorem HasDeriv.const (a : V3) (s : Set ℝ) (t : ℝ) : HasDeriv (fun _ => a) 0 s t :=
  ⟨hasDerivWithinAt_const .., hasDerivWithinAt_const .., hasDerivWithinAt_const ..⟩

theorem HasDeriv.smul {c : ℝ → ℝ} {c' : ℝ} {y : ℝ → V3} {w : V3} {s : Set ℝ} {t : ℝ} (hc : HasDerivWithinAt c c' s t)
    (h : HasDeriv y w s t) : HasDeriv (fun t => c t * y t) (c' * y t + c t * w) s t :=
  ⟨hc.mul h.x, hc.mul h.y, hc.mul h.z⟩

theorem HasDeriv.cross {y z : ℝ → V3} {w v : V3} {s : Set ℝ} {t : ℝ} (h : HasDeriv y w s t) (k : HasDeriv z v s t) :
    HasDeriv (fun t => (y t).cross (z t)) (w.cross (z t) + (y t).cross v) s t := by
  refine ⟨((h.y.mul k.z).sub (h.z.mul k.y)).congr_deriv ?_, ((h.z.mul k.x).sub (h.x.mul k.z)).congr_deriv ?_,
    ((h.x.mul k.y).sub (h.y.mul k.x)).congr_deriv ?_⟩ <;> simp only [V3.cross, V3.add_x, V3.add_y, V3.add_z] <;> ring

theorem HasDeriv.congr {y : ℝ → V3} {w w' : V3} {s : Set ℝ} {t : ℝ} (h : HasDeriv y w s t) (e : w = w') : HasDeriv y w' s t := e ▸ h

theorem HasDeriv.co {y : ℝ → V3} {w : V3} {s : Set ℝ} {t : ℝ} (h : HasDeriv y w s t) :
    HasDerivWithinAt (fun t => co (y t)) (co w) s t := by
  refine hasDerivWithinAt_pi.mpr fun k => ?_
  fin_cases k
  · exact h.x
  · exact h.y
  · exact h.z

/-! ## the vector field of the equation -/

/-- the part of the field which depends on the magnetization -/
def Body.lin (b : Body) (w : V3) : V3 := b.N.app w + (b.Hk * b.axis.dot w) * b.axis

theorem field_eq (b : Body) (u : V3) : b.field u = b.H0 + b.lin u := by
  unfold Body.field Body.lin
  ext <;> simp only [V3.add_x, V3.add_y, V3.add_z] <;> ring

theorem HasDeriv.lin (b : Body) {y : ℝ → V3} {w : V3} {s : Set ℝ} {t : ℝ} (h : HasDeriv y w s t) :
    HasDeriv (fun t => b.lin (y t)) (b.lin w) s t := by
  have hr : ∀ r : V3, HasDerivWithinAt (fun t => r.dot (y t)) (r.dot w) s t := fun r =>
    ((HasDeriv.const r s t).dot h).congr_deriv (by simp [V3.dot])
  have h1 : HasDeriv (fun t => b.N.app (y t)) (b.N.app w) s t := ⟨hr _, hr _, hr _⟩
  have h2 := HasDeriv.smul ((hr b.axis).const_mul b.Hk) (HasDeriv.const b.axis s t)
  refine (h1.add h2).congr ?_
  unfold Body.lin
  ext <;> simp

theorem HasDeriv.field (b : Body) {y : ℝ → V3} {w : V3} {s : Set ℝ} {t : ℝ} (h : HasDeriv y w s t) :
    HasDeriv (fun t => b.field (y t)) (b.lin w) s t := by
  have := (HasDeriv.const b.H0 s t).add (h.lin b)
  simp only [field_eq]
  exact this.congr (by ext <;> simp)

/-- the explicit form of the equation -/
noncomputable def Body.rhs (b : Body) (u : V3) : V3 :=
  (b.gamma / (1 + b.alpha ^ 2)) * (b.alpha * (b.field u - (u.dot (b.field u)) * u) - u.cross (b.field u))

/-- its derivative along `w` -/
noncomputable def Body.rhsD (b : Body) (u w : V3) : V3 :=
  (b.gamma / (1 + b.alpha ^ 2)) * (b.alpha * (b.lin w - ((w.dot (b.field u) + u.dot (b.lin w)) * u + (u.dot (b.field u)) * w))
    - (w.cross (b.field u) + u.cross (b.lin w)))

/-- second derivative of the solutions -/
noncomputable def Body.acc (b : Body) (u : V3) : V3 := b.rhsD u (b.rhs u)

theorem HasDeriv.rhs (b : Body) {y : ℝ → V3} {w : V3} {s : Set ℝ} {t : ℝ} (h : HasDeriv y w s t) :
    HasDeriv (fun t => b.rhs (y t)) (b.rhsD (y t) w) s t := by
  have hf := h.field b
  have h1 := hf.sub (HasDeriv.smul (h.dot hf) h)
  have h2 := (HasDeriv.smul (hasDerivWithinAt_const t s b.alpha) h1).sub (h.cross hf)
  refine (HasDeriv.smul (hasDerivWithinAt_const t s (b.gamma / (1 + b.alpha ^ 2))) h2).congr ?_
  unfold Body.rhsD
  ext <;> simp

/-! ## identities on the unit sphere -/

theorem lin_add (b : Body) (u v : V3) : b.lin (u + v) = b.lin u + b.lin v := by
  unfold Body.lin Mat.app
  ext <;> simp only [V3.dot, V3.add_x, V3.add_y, V3.add_z, V3.smul_x, V3.smul_y, V3.smul_z] <;> ring

theorem lin_sub (b : Body) (u v : V3) : b.lin (u - v) = b.lin u - b.lin v := by
  unfold Body.lin Mat.app
  ext <;> simp only [V3.dot, V3.sub_x, V3.sub_y, V3.sub_z, V3.add_x, V3.add_y, V3.add_z, V3.smul_x, V3.smul_y, V3.smul_z] <;> ring

theorem lin_smul (b : Body) (a : ℝ) (u : V3) : b.lin (a * u) = a * b.lin u := by
  unfold Body.lin Mat.app
  ext <;> simp only [V3.dot, V3.add_x, V3.add_y, V3.add_z, V3.smul_x, V3.smul_y, V3.smul_z] <;> ring

/-- component orthogonal to `u` -/
def tang (u z : V3) : V3 := z - (u.dot z) * u

macro "v3_ring" : tactic => `(tactic| (
  simp only [V3.dot, V3.cross, V3.sub_x, V3.sub_y, V3.sub_z, V3.add_x, V3.add_y, V3.add_z, V3.smul_x, V3.smul_y, V3.smul_z, V3.neg_x,
    V3.neg_y, V3.neg_z]))

theorem rhs_tang (b : Body) {u : V3} (hu : u.dot u = 1) : u.dot (b.rhs u) = 0 := by
  unfold Body.rhs
  generalize b.field u = H
  have hu' : u.x * u.x + u.y * u.y + u.z * u.z = 1 := hu
  v3_ring
  linear_combination (-(b.gamma / (1 + b.alpha ^ 2)) * b.alpha * (u.x * H.x + u.y * H.y + u.z * H.z)) * hu'

/-- the implicit form of the equation -/
theorem rhs_implicit (b : Body) {u : V3} (hu : u.dot u = 1) :
    b.alpha * b.rhs u + u.cross (b.rhs u) = b.gamma * tang u (b.field u) := by
  unfold Body.rhs tang
  generalize b.field u = H
  have hu' : u.x * u.x + u.y * u.y + u.z * u.z = 1 := hu
  have hd : 1 + b.alpha ^ 2 ≠ 0 := by positivity
  ext
  · v3_ring
    field_simp
    linear_combination (b.gamma * H.x) * hu'
  · v3_ring
    field_simp
    linear_combination (b.gamma * H.y) * hu'
  · v3_ring
    field_simp
    linear_combination (b.gamma * H.z) * hu'

/-- a tangent vector is determined by its image -/
theorem image_norm {u x r : V3} {a : ℝ} (hu : u.dot u = 1) (hx : u.dot x = 0) (h : a * x + u.cross x = r) :
    x.dot x ≤ r.dot r := by
  have hu' : u.x * u.x + u.y * u.y + u.z * u.z = 1 := hu
  have hx' : u.x * x.x + u.y * x.y + u.z * x.z = 0 := hx
  have e : r.dot r = (a ^ 2 + 1) * x.dot x := by
    rw [← h]
    v3_ring
    linear_combination (x.x * x.x + x.y * x.y + x.z * x.z) * hu' - (u.x * x.x + u.y * x.y + u.z * x.z) * hx'
  have h0 : 0 ≤ x.dot x := by simp only [V3.dot]; nlinarith [mul_self_nonneg x.x, mul_self_nonneg x.y, mul_self_nonneg x.z]
  rw [e]
  nlinarith [mul_nonneg (sq_nonneg a) h0]

/-- a velocity that solves the implicit form is the explicit one -/
theorem implicit_unique (b : Body) {u w : V3} (hu : u.dot u = 1)
    (h : w = -(b.gamma * u.cross (b.field u)) + b.alpha * u.cross w) : w = b.rhs u := by
  have hu' : u.x * u.x + u.y * u.y + u.z * u.z = 1 := hu
  have hw : u.dot w = 0 := by
    rw [h]
    v3_ring
    ring
  have h1 : b.alpha * w + u.cross w = b.gamma * tang u (b.field u) := by
    have e : u.cross w = b.gamma * tang u (b.field u) - b.alpha * w := by
      have hw' : u.x * w.x + u.y * w.y + u.z * w.z = 0 := hw
      have hx := congrArg V3.x h
      have hy := congrArg V3.y h
      have hz := congrArg V3.z h
      unfold tang
      generalize b.field u = H at *
      simp only [V3.cross, V3.add_x, V3.add_y, V3.add_z, V3.smul_x, V3.smul_y, V3.smul_z, V3.neg_x, V3.neg_y, V3.neg_z] at hx hy hz
      ext
      · v3_ring
        linear_combination u.y * hz - u.z * hy + (b.alpha * u.x) * hw' + (b.gamma * H.x - b.alpha * w.x) * hu'
      · v3_ring
        linear_combination u.z * hx - u.x * hz + (b.alpha * u.y) * hw' + (b.gamma * H.y - b.alpha * w.y) * hu'
      · v3_ring
        linear_combination u.x * hy - u.y * hx + (b.alpha * u.z) * hw' + (b.gamma * H.z - b.alpha * w.z) * hu'
    rw [e]
    ext <;> simp
  have h2 := rhs_implicit b hu
  have h3 : b.alpha * (w - b.rhs u) + u.cross (w - b.rhs u) = 0 := by
    have e : b.alpha * (w - b.rhs u) + u.cross (w - b.rhs u) =
        (b.alpha * w + u.cross w) - (b.alpha * b.rhs u + u.cross (b.rhs u)) := by
      ext <;> v3_ring <;> ring
    rw [e, h1, h2]
    ext <;> simp
  have h4 : u.dot (w - b.rhs u) = 0 := by
    have := rhs_tang b hu
    simp only [V3.dot, V3.sub_x, V3.sub_y, V3.sub_z] at this hw ⊢
    linarith
  have h5 := image_norm hu h4 h3
  have h6 : w - b.rhs u = 0 := by
    generalize w - b.rhs u = d at h5
    simp only [V3.dot, V3.zero_x, V3.zero_y, V3.zero_z] at h5
    have a1 := mul_self_nonneg d.x
    have a2 := mul_self_nonneg d.y
    have a3 := mul_self_nonneg d.z
    ext
    · exact mul_self_eq_zero.mp (by linarith)
    · exact mul_self_eq_zero.mp (by linarith)
    · exact mul_self_eq_zero.mp (by linarith)
  ext
  · exact sub_eq_zero.mp (congrArg V3.x h6)
  · exact sub_eq_zero.mp (congrArg V3.y h6)
  · exact sub_eq_zero.mp (congrArg V3.z h6)

/-- the second derivative along the solution keeps the sphere -/
theorem acc_normal (b : Body) {u : V3} (hu : u.dot u = 1) : u.dot (b.acc u) = -(b.rhs u).dot (b.rhs u) := by
  have hu' : u.x * u.x + u.y * u.y + u.z * u.z = 1 := hu
  have hf := rhs_tang b hu
  -- derivative of `u·rhs = c alpha (1 - u·u) (u·H)`
  have key : ∀ w : V3, u.dot w = 0 → w.dot (b.rhs u) + u.dot (b.rhsD u w) = 0 := by
    intro w hw
    have hw' : u.x * w.x + u.y * w.y + u.z * w.z = 0 := hw
    unfold Body.rhs Body.rhsD
    generalize b.field u = H
    generalize b.lin w = K
    generalize b.gamma / (1 + b.alpha ^ 2) = c
    v3_ring
    linear_combination (-c * b.alpha * (w.x * H.x + w.y * H.y + w.z * H.z + (u.x * K.x + u.y * K.y + u.z * K.z))) * hu'
      + (-2 * c * b.alpha * (u.x * H.x + u.y * H.y + u.z * H.z)) * hw'
  have := key _ hf
  unfold Body.acc
  linarith

/-- the implicit form of the second derivative -/
theorem acc_implicit (b : Body) {u : V3} (hu : u.dot u = 1) :
    b.alpha * tang u (b.acc u) + u.cross (tang u (b.acc u)) =
      b.gamma * (tang u (b.lin (b.rhs u)) - (u.dot (b.field u)) * b.rhs u) := by
  have hu' : u.x * u.x + u.y * u.y + u.z * u.z = 1 := hu
  have hd : 1 + b.alpha ^ 2 ≠ 0 := by positivity
  have key : ∀ w : V3, u.dot w = 0 → w.cross (b.rhs u) = 0 → b.alpha * tang u (b.rhsD u w) + u.cross (tang u (b.rhsD u w)) =
      b.gamma * (tang u (b.lin w) - (u.dot (b.field u)) * w) := by
    intro w hw hc
    have hw' : u.x * w.x + u.y * w.y + u.z * w.z = 0 := hw
    have e1 : b.alpha * b.rhsD u w + u.cross (b.rhsD u w) =
        b.gamma * (b.lin w - ((w.dot (b.field u) + u.dot (b.lin w)) * u + (u.dot (b.field u)) * w)) := by
      have e2 : b.alpha * b.rhsD u w + (w.cross (b.rhs u) + u.cross (b.rhsD u w)) =
          b.gamma * (b.lin w - ((w.dot (b.field u) + u.dot (b.lin w)) * u + (u.dot (b.field u)) * w)) := by
        unfold Body.rhsD Body.rhs
        generalize b.field u = H
        generalize b.lin w = K
        ext
        · v3_ring
          field_simp
          linear_combination (b.gamma * K.x) * hu' + (2 * b.gamma * H.x) * hw'
        · v3_ring
          field_simp
          linear_combination (b.gamma * K.y) * hu' + (2 * b.gamma * H.y) * hw'
        · v3_ring
          field_simp
          linear_combination (b.gamma * K.z) * hu' + (2 * b.gamma * H.z) * hw'
      rw [hc] at e2
      rw [← e2]
      ext <;> simp
    have e3 : b.alpha * u.dot (b.rhsD u w) = b.gamma * (u.dot (b.lin w) - (w.dot (b.field u) + u.dot (b.lin w))) := by
      have hx := congrArg V3.x e1
      have hy := congrArg V3.y e1
      have hz := congrArg V3.z e1
      generalize b.rhsD u w = D at *
      generalize b.field u = H at *
      generalize b.lin w = K at *
      simp only [V3.dot, V3.cross, V3.sub_x, V3.sub_y, V3.sub_z, V3.add_x, V3.add_y, V3.add_z, V3.smul_x, V3.smul_y, V3.smul_z] at hx hy hz ⊢
      linear_combination u.x * hx + u.y * hy + u.z * hz
        - (b.gamma * (w.x * H.x + w.y * H.y + w.z * H.z + (u.x * K.x + u.y * K.y + u.z * K.z))) * hu'
        - (b.gamma * (u.x * H.x + u.y * H.y + u.z * H.z)) * hw'
    have e4 : b.alpha * tang u (b.rhsD u w) + u.cross (tang u (b.rhsD u w)) =
        (b.alpha * b.rhsD u w + u.cross (b.rhsD u w)) - (b.alpha * u.dot (b.rhsD u w)) * u := by
      unfold tang
      ext <;> v3_ring <;> ring
    rw [e4, e1, e3]
    unfold tang
    ext <;> v3_ring <;> ring
  exact key _ (rhs_tang b hu) (by ext <;> simp only [V3.cross, V3.zero_x, V3.zero_y, V3.zero_z] <;> ring)

end Verif.MacroSpin
