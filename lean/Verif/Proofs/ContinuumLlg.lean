import Verif.Proofs.ContinuumField
import Verif.Spec.ContinuumLlg

/-!
# Consistency of the terms of the equation of motion on one element
-/

namespace Verif.Continuum

open MeasureTheory Verif.Tetra Verif.Rounded

theorem quad_lip {G : Rule} (hG : Compiled G) {p : Fin 4 → V3} (hp : 0 < detJ p) {h : ℝ} (hr : ∀ i j, (p i - p j).norm ≤ h)
    (F : Fin G.n → ℝ) (f : V3 → ℝ) (K e : ℝ) (hK : 0 ≤ K) (he : K * h ≤ e)
    (hf : ∀ x y, InTet p x → InTet p y → |f y - f x| ≤ K * (y - x).norm) (h1 : ∀ j, |F j - f (p 0)| ≤ e) :
    |∑ j, weight G p j * F j - tetIntegral p f| ≤ tetVolume p * (18 / 5 * e) := by
  refine (quad_near hG hp F f (f (p 0)) e e (integrable_of_lip hf) h1 fun x hx => ?_).trans (le_of_eq (by ring))
  exact (hf _ _ (inTet_vertex p 0) hx).trans ((mul_le_mul_of_nonneg_left (inTet_near hr hx) hK).trans he)

/-- scalar products of bounded vectors -/
theorem dot_near' {a b c d : V3} {P Q e1 e2 : ℝ} (ha : a.norm ≤ Q) (hd : d.norm ≤ P) (h1 : (a - b).norm ≤ e1) (h2 : (c - d).norm ≤ e2) :
    |a.dot c - b.dot d| ≤ e1 * P + Q * e2 := by
  have e : a.dot c - b.dot d = (a - b).dot d + a.dot (c - d) := by
    simp only [V3.dot, V3.sub_x, V3.sub_y, V3.sub_z]
    ring
  rw [e]
  refine (abs_add_le _ _).trans (add_le_add ?_ ?_)
  · exact (Rounded.abs_dot_le _ _).trans (mul_le_mul h1 hd (norm_nonneg _) ((norm_nonneg _).trans h1))
  · exact (Rounded.abs_dot_le _ _).trans (mul_le_mul ha h2 (norm_nonneg _) ((norm_nonneg _).trans ha))

theorem cross_near {a b c d : V3} {P Q e1 e2 : ℝ} (ha : a.norm ≤ Q) (hd : d.norm ≤ P) (h1 : (a - b).norm ≤ e1)
    (h2 : (c - d).norm ≤ e2) : (a.cross c - b.cross d).norm ≤ e1 * P + Q * e2 := by
  have e : a.cross c - b.cross d = (a - b).cross d + a.cross (c - d) := by
    ext <;> simp [V3.cross] <;> ring
  rw [e]
  refine (norm_add_le' _ _).trans (add_le_add ?_ ?_)
  · exact (cross_le _ _).trans (mul_le_mul h1 hd (norm_nonneg _) ((norm_nonneg _).trans h1))
  · exact (cross_le _ _).trans (mul_le_mul ha h2 (norm_nonneg _) ((norm_nonneg _).trans ha))

theorem mean_near_real {l : Fin 4 → ℝ} (h0 : ∀ i, 0 ≤ l i) (h1 : ∑ i, l i = 1) (f : Fin 4 → ℝ) (c : ℝ) {e : ℝ}
    (h : ∀ i, |f i - c| ≤ e) : |(∑ i, f i * l i) - c| ≤ e := by
  have e1 : (∑ i, f i * l i) - c = ∑ i, l i * (f i - c) := by
    have : ∑ i, l i * (f i - c) = (∑ i, f i * l i) - (∑ i, l i) * c := by
      rw [Finset.sum_mul, ← Finset.sum_sub_distrib]
      exact Finset.sum_congr rfl fun i _ => by ring
    rw [this, h1, one_mul]
  rw [e1]
  refine (Finset.abs_sum_le_sum_abs _ _).trans ?_
  calc ∑ i, |l i * (f i - c)| ≤ ∑ i, l i * e := by
        refine Finset.sum_le_sum fun i _ => ?_
        rw [abs_mul, abs_of_nonneg (h0 i)]
        exact mul_le_mul_of_nonneg_left (h i) (h0 i)
    _ = e := by rw [← Finset.sum_mul, h1, one_mul]

theorem mean_le {l : Fin 4 → ℝ} (h0 : ∀ i, 0 ≤ l i) (h1 : ∑ i, l i = 1) (f : Fin 4 → V3) {P : ℝ} (h : ∀ i, (f i).norm ≤ P) :
    (∑ i, l i * f i).norm ≤ P := by
  have := mean_near h0 h1 f 0 (e := P) fun i => by
    have : f i - 0 = f i := by ext <;> simp
    rw [this]
    exact h i
  have e : (∑ i, l i * f i) - 0 = ∑ i, l i * f i := by ext <;> simp
  rwa [e] at this

/-- a product interpolated between the nodes (lumped terms) -/
theorem lumped_near {G : Rule} (hG : Compiled G) {p : Fin 4 → V3} (hp : 0 < detJ p) {h : ℝ} (hr : ∀ i j, (p i - p j).norm ≤ h)
    (f : V3 → ℝ) (K : ℝ) (hK : 0 ≤ K) (hf : ∀ x y, InTet p x → InTet p y → |f y - f x| ≤ K * (y - x).norm) :
    |∑ j, weight G p j * interpS G (fun i => f (p i)) j - tetIntegral p f| ≤ tetVolume p * (18 / 5 * (K * h)) := by
  refine quad_lip hG hp hr _ f K (K * h) hK le_rfl hf fun j => ?_
  refine mean_near_real (fun i => a_nonneg hG i j) (G.a_sum j) _ _ fun i => ?_
  exact (hf _ _ (inTet_vertex p 0) (inTet_vertex p i)).trans (mul_le_mul_of_nonneg_left (hr i 0) hK)

theorem deriv_near' {p : Fin 4 → V3} (hp : 0 < detJ p) {h κ : ℝ} (h0 : 0 < h) (hr : Regular h κ p) {w : V3 → V3}
    {E : Fin 3 → V3 → V3} {P N L : ℝ} (hs : SmoothVec (InTet p) w E P N L) (hL : 0 ≤ L) (d : Fin 3) :
    (Tetra.deriv p d (fun i => w (p i)) - E d (p 0)).norm ≤ κ / 4 * L * h := by
  let c : V3 := w (p 0) - (p 0).x * E 0 (p 0) - (p 0).y * E 1 (p 0) - (p 0).z * E 2 (p 0)
  have haff := (C35_affine_vector rule1 p hp.ne' c (fun k => E k (p 0))).2 d
  dsimp only at haff
  set r : Fin 4 → V3 := fun i => w (p i) - (w (p 0) + (p i - p 0).x * E 0 (p 0) + (p i - p 0).y * E 1 (p 0)
    + (p i - p 0).z * E 2 (p 0)) with hr'
  have e : Tetra.deriv p d (fun i => w (p i)) - E d (p 0) = ∑ i, da p i d * r i := by
    rw [← haff]
    simp only [Tetra.deriv, Fin.sum_univ_four, hr', c]
    ext <;> simp <;> ring
  have hk := kappa_nonneg h0 hr
  have hr0 : (r 0).norm = 0 := by
    have : r 0 = 0 := by
      simp only [hr']
      ext <;> simp
    rw [this]
    simp [V3.norm, V3.nsq]
  have hri : ∀ i, (r i).norm ≤ L / 2 * h ^ 2 := by
    intro i
    refine (hs.taylor (p 0) (p i) (inTet_vertex p 0) (inTet_vertex p i)).trans ?_
    have := hr.edge i 0
    have := norm_nonneg (p i - p 0)
    gcongr
  rw [e, Fin.sum_univ_succ]
  refine (norm_add_le' _ _).trans ?_
  rw [norm_smul', hr0, mul_zero, zero_add]
  refine (norm_sum_le' _).trans ?_
  calc ∑ i : Fin 3, (da p i.succ d * r i.succ).norm ≤ ∑ i : Fin 3, κ / 6 / h * (L / 2 * h ^ 2) := by
        refine Finset.sum_le_sum fun i _ => ?_
        rw [norm_smul']
        refine mul_le_mul ?_ (hri _) (norm_nonneg _) (by positivity)
        rw [da_comp]
        exact (comp_le _ _).trans (daRow_le hp h0 hr i)
    _ = κ / 4 * L * h := by
        rw [Finset.sum_const, Finset.card_univ, Fintype.card_fin]
        simp
        field_simp
        ring

/-- the exchange term -/
theorem gradDot_near {G : Rule} (hG : Compiled G) {p : Fin 4 → V3} (hp : 0 < detJ p) {h κ : ℝ} (h0 : 0 < h) (hr : Regular h κ p)
    {u w : V3 → V3} {D E : Fin 3 → V3 → V3} {P N L : ℝ} (hN : 0 ≤ N) (hL : 0 ≤ L) (hu : SmoothVec (InTet p) u D P N L)
    (hw : SmoothVec (InTet p) w E P N L) :
    |calcVol G p * WeakForm.gradDot p (fun i => u (p i)) (fun i => w (p i)) - tetIntegral p (gradDens D E)| ≤
      tetVolume p * ((6 * N * L + 39 / 20 * κ * L * (2 * N + κ / 4 * L * h)) * h) := by
  have hk := kappa_nonneg h0 hr
  have v0 := inTet_vertex p 0
  have hl : ∀ x y, InTet p x → InTet p y → |gradDens D E y - gradDens D E x| ≤ 6 * N * L * (y - x).norm := by
    intro x y hx hy
    rw [gradDens, gradDens, ← Finset.sum_sub_distrib]
    refine (Finset.abs_sum_le_sum_abs _ _).trans ?_
    calc ∑ d, |(D d y).dot (E d y) - (D d x).dot (E d x)| ≤ ∑ d : Fin 3, (L * (y - x).norm * N + N * (L * (y - x).norm)) :=
          Finset.sum_le_sum fun d _ => dot_near' (hu.bound d y hy) (hw.bound d x hx) (hu.lip d x y hx hy) (hw.lip d x y hx hy)
      _ = 6 * N * L * (y - x).norm := by
          rw [Finset.sum_const, Finset.card_univ, Fintype.card_fin]
          simp
          ring
  have hq := quad_near hG hp (fun _ => WeakForm.gradDot p (fun i => u (p i)) (fun i => w (p i))) (gradDens D E) (gradDens D E (p 0))
    (3 * (κ / 4 * L * h * (2 * N + κ / 4 * L * h))) (6 * N * L * h) (integrable_of_lip hl)
    (fun _ => by
      have e : WeakForm.gradDot p (fun i => u (p i)) (fun i => w (p i)) - gradDens D E (p 0) =
          ∑ d, ((Tetra.deriv p d (fun i => u (p i))).dot (Tetra.deriv p d (fun i => w (p i))) - (D d (p 0)).dot (E d (p 0))) := by
        rw [Finset.sum_sub_distrib, gradDens]
        simp [WeakForm.gradDot, Fin.sum_univ_three]
      rw [e]
      refine (Finset.abs_sum_le_sum_abs _ _).trans ?_
      calc _ ≤ ∑ d : Fin 3, (κ / 4 * L * h * N + (N + κ / 4 * L * h) * (κ / 4 * L * h)) := by
            refine Finset.sum_le_sum fun d _ => ?_
            have h1 := deriv_near' hp h0 hr hu hL d
            have h2 := deriv_near' hp h0 hr hw hL d
            refine dot_near' ?_ (hw.bound d _ v0) h1 h2
            have h3 := norm_add_le' (Tetra.deriv p d (fun i => u (p i)) - D d (p 0)) (D d (p 0))
            have e : Tetra.deriv p d (fun i => u (p i)) - D d (p 0) + D d (p 0) = Tetra.deriv p d (fun i => u (p i)) := by
              ext <;> simp
            rw [e] at h3
            linarith [hu.bound d _ v0]
        _ = _ := by
            rw [Finset.sum_const, Finset.card_univ, Fintype.card_fin]
            simp
            ring)
    (fun x hx => (hl _ _ v0 hx).trans (mul_le_mul_of_nonneg_left (inTet_near hr.edge hx) (by positivity)))
  have e : calcVol G p * WeakForm.gradDot p (fun i => u (p i)) (fun i => w (p i)) =
      ∑ j, weight G p j * WeakForm.gradDot p (fun i => u (p i)) (fun i => w (p i)) := by
    rw [calcVol, Finset.sum_mul]
  rw [e]
  exact hq.trans (le_of_eq (by ring))

/-! ### anisotropy -/

/-- how much the anisotropy field can vary -/
noncomputable def anisoRate (m : Prm) (mu0 : ℝ) : ℝ := |2 * m.K / (mu0 * m.Ms)| + 12 * |2 * m.K3 / (mu0 * m.Ms)|

theorem anisoRate_nonneg (m : Prm) (mu0 : ℝ) : 0 ≤ anisoRate m mu0 := by
  unfold anisoRate
  positivity

theorem cubicComp_near {k a b : V3} (hk : k.norm ≤ 1) (ha : a.norm ≤ 1) (hb : b.norm ≤ 1) :
    ((k.dot a * (1 - k.dot a * k.dot a)) * k - (k.dot b * (1 - k.dot b * k.dot b)) * k : V3).norm ≤ 4 * (a - b).norm := by
  have hc : ∀ c, k.dot c = c.dot k := fun c => by simp only [V3.dot]; ring
  have e : ((k.dot a * (1 - k.dot a * k.dot a)) * k - (k.dot b * (1 - k.dot b * k.dot b)) * k : V3) =
      (k.dot a * (1 - k.dot a * k.dot a) - k.dot b * (1 - k.dot b * k.dot b)) * k := by
    ext <;> simp <;> ring
  rw [e, norm_smul', hc, hc]
  have h1 := dot_le_one hk ha
  have h2 := dot_le_one hk hb
  have h3 := dot_sub_le hk a b
  have q := mul_sub_le h1 h2 h3 h3
  have p1 : |a.dot k * a.dot k| ≤ 1 := by
    rw [abs_mul]
    exact mul_le_one₀ h1 (abs_nonneg _) h1
  have q3 := mul_sub_le p1 h2 h3 q
  have e2 : a.dot k * (1 - a.dot k * a.dot k) - b.dot k * (1 - b.dot k * b.dot k) =
      (a.dot k - b.dot k) - (a.dot k * (a.dot k * a.dot k) - b.dot k * (b.dot k * b.dot k)) := by ring
  have h4 : |a.dot k * (1 - a.dot k * a.dot k) - b.dot k * (1 - b.dot k * b.dot k)| ≤ 4 * (a - b).norm := by
    rw [e2]
    refine (abs_sub _ _).trans ?_
    linarith
  nlinarith [norm_nonneg k, norm_nonneg (a - b), abs_nonneg (a.dot k * (1 - a.dot k * a.dot k) - b.dot k * (1 - b.dot k * b.dot k))]

theorem aniso_near {m : Prm} {mu0 : ℝ} (h1 : m.uk.norm ≤ 1) (h2 : m.ex.norm ≤ 1) (h3 : m.ey.norm ≤ 1) (h4 : m.ez.norm ≤ 1)
    {a b : V3} (ha : a.norm ≤ 1) (hb : b.norm ≤ 1) :
    (SemiDiscrete.anisoField m mu0 a - SemiDiscrete.anisoField m mu0 b).norm ≤ anisoRate m mu0 * (a - b).norm := by
  have hc : ∀ c, m.uk.dot c = c.dot m.uk := fun c => by simp only [V3.dot]; ring
  set x1 : V3 := (m.ex.dot a * (1 - m.ex.dot a * m.ex.dot a)) * m.ex - (m.ex.dot b * (1 - m.ex.dot b * m.ex.dot b)) * m.ex with hx1
  set x2 : V3 := (m.ey.dot a * (1 - m.ey.dot a * m.ey.dot a)) * m.ey - (m.ey.dot b * (1 - m.ey.dot b * m.ey.dot b)) * m.ey with hx2
  set x3 : V3 := (m.ez.dot a * (1 - m.ez.dot a * m.ez.dot a)) * m.ez - (m.ez.dot b * (1 - m.ez.dot b * m.ez.dot b)) * m.ez with hx3
  have e : SemiDiscrete.anisoField m mu0 a - SemiDiscrete.anisoField m mu0 b =
      ((2 * m.K / (mu0 * m.Ms)) * (a.dot m.uk - b.dot m.uk)) * m.uk - (2 * m.K3 / (mu0 * m.Ms)) * (x1 + x2 + x3) := by
    simp only [SemiDiscrete.anisoField, hc, hx1, hx2, hx3]
    ext <;> simp <;> ring
  have n1 := cubicComp_near h2 ha hb
  have n2 := cubicComp_near h3 ha hb
  have n3 := cubicComp_near h4 ha hb
  rw [← hx1] at n1
  rw [← hx2] at n2
  rw [← hx3] at n3
  have n4 : (x1 + x2 + x3).norm ≤ 12 * (a - b).norm := by
    have := norm_add_le' (x1 + x2) x3
    have := norm_add_le' x1 x2
    linarith
  rw [e]
  refine (norm_sub_le' _ _).trans ?_
  rw [norm_smul', norm_smul', abs_mul, anisoRate, add_mul]
  refine add_le_add ?_ ?_
  · have := dot_sub_le h1 a b
    have q : |a.dot m.uk - b.dot m.uk| * m.uk.norm ≤ (a - b).norm := by
      nlinarith [norm_nonneg m.uk, abs_nonneg (a.dot m.uk - b.dot m.uk)]
    rw [mul_assoc]
    exact mul_le_mul_of_nonneg_left q (abs_nonneg _)
  · have := mul_le_mul_of_nonneg_left n4 (abs_nonneg (2 * m.K3 / (mu0 * m.Ms)))
    linarith

theorem aniso_le {m : Prm} {mu0 : ℝ} (h1 : m.uk.norm ≤ 1) (h2 : m.ex.norm ≤ 1) (h3 : m.ey.norm ≤ 1) (h4 : m.ez.norm ≤ 1)
    {a : V3} (ha : a.norm ≤ 1) : (SemiDiscrete.anisoField m mu0 a).norm ≤ anisoRate m mu0 := by
  have z : SemiDiscrete.anisoField m mu0 0 = 0 := by
    unfold SemiDiscrete.anisoField
    ext <;> simp [V3.dot]
  have h := aniso_near (mu0 := mu0) h1 h2 h3 h4 ha (b := 0) (by simp [V3.norm, V3.nsq])
  have e1 : SemiDiscrete.anisoField m mu0 a - 0 = SemiDiscrete.anisoField m mu0 a := by ext <;> simp
  have e2 : a - 0 = a := by ext <;> simp
  rw [z, e1, e2] at h
  nlinarith [anisoRate_nonneg m mu0]

/-! ### the local fields -/

theorem dot_comm' (a b : V3) : a.dot b = b.dot a := by
  simp only [V3.dot]
  ring

theorem add4_near {a b c d a' b' c' d' : V3} {e1 e2 e3 e4 : ℝ} (h1 : (a - a').norm ≤ e1) (h2 : (b - b').norm ≤ e2)
    (h3 : (c - c').norm ≤ e3) (h4 : (d - d').norm ≤ e4) : (a + b + c + d - (a' + b' + c' + d')).norm ≤ e1 + e2 + e3 + e4 := by
  have e : a + b + c + d - (a' + b' + c' + d') = (a - a') + (b - b') + (c - c') + (d - d') := by
    ext <;> simp <;> ring
  rw [e]
  have n1 := norm_add_le' (a - a') (b - b')
  have n2 := norm_add_le' ((a - a') + (b - b')) (c - c')
  have n3 := norm_add_le' ((a - a') + (b - b') + (c - c')) (d - d')
  linarith

theorem add4_le {a b c d : V3} {e1 e2 e3 e4 : ℝ} (h1 : a.norm ≤ e1) (h2 : b.norm ≤ e2)
    (h3 : c.norm ≤ e3) (h4 : d.norm ≤ e4) : (a + b + c + d).norm ≤ e1 + e2 + e3 + e4 := by
  have n1 := norm_add_le' a b
  have n2 := norm_add_le' (a + b) c
  have n3 := norm_add_le' (a + b + c) d
  linarith

/-- the smoothness of all fields on one element -/
structure SmoothFields (B : V3 → Prop) (q : Fields) (r : ℕ) (w : V3 → V3) (E : Fin 3 → V3 → V3) (P N L : ℝ) : Prop where
  u : SmoothVec B q.u (q.D r) 1 N L
  v : Gentle B q.v P N
  phi : SmoothPot B q.phi (q.g r) P N
  F : Gentle B q.F P N
  S : Gentle B q.S P N
  w : SmoothVec B w E P N L

/-- the axes of the anisotropies are at most unit vectors -/
def Axes (m : Prm) : Prop := m.uk.norm ≤ 1 ∧ m.ex.norm ≤ 1 ∧ m.ey.norm ≤ 1 ∧ m.ez.norm ≤ 1

theorem SmoothVec.mono {B : V3 → Prop} {w : V3 → V3} {E : Fin 3 → V3 → V3} {P N L P' : ℝ} (hw : SmoothVec B w E P N L) (h : P ≤ P') :
    SmoothVec B w E P' N L := ⟨fun x hx => (hw.size x hx).trans h, hw.slope, hw.bound, hw.taylor, hw.lip⟩

section element

variable {G : Rule} (hG : Compiled G) {p : Fin 4 → V3} (hp : 0 < detJ p) {h κ : ℝ} (h0 : 0 < h) (hr : Regular h κ p)
  {q : Fields} {r : ℕ} {w : V3 → V3} {E : Fin 3 → V3 → V3} {P N L : ℝ} (hP : 1 ≤ P) (hN : 0 ≤ N) (hL : 0 ≤ L)
  (hs : SmoothFields (InTet p) q r w E P N L)

include hP hN hs

theorem localField_near {m : Prm} {mu0 : ℝ} (hm : Axes m) {x y : V3} (hx : InTet p x) (hy : InTet p y) :
    (localField m mu0 q r y - localField m mu0 q r x).norm ≤ (3 + anisoRate m mu0) * N * (y - x).norm := by
  have hc := anisoRate_nonneg m mu0
  have h1 : (-q.g r y - -q.g r x).norm ≤ N * (y - x).norm := by
    have : -q.g r y - -q.g r x = -(q.g r y - q.g r x) := by ext <;> simp <;> ring
    rw [this, norm_neg']
    exact hs.phi.lip x y hx hy
  have h3 := (aniso_near (mu0 := mu0) hm.1 hm.2.1 hm.2.2.1 hm.2.2.2 (hs.u.size y hy) (hs.u.size x hx)).trans
    (mul_le_mul_of_nonneg_left (hs.u.slope x y hx hy) hc)
  have := add4_near h1 (hs.F.lip x y hx hy) h3 (hs.S.lip x y hx hy)
  unfold localField
  linarith

theorem localField_le {m : Prm} {mu0 : ℝ} (hm : Axes m) {x : V3} (hx : InTet p x) :
    (localField m mu0 q r x).norm ≤ 3 * P + anisoRate m mu0 := by
  have h1 : (-q.g r x).norm ≤ P := by
    rw [norm_neg']
    exact hs.phi.bound x hx
  have := add4_le h1 (hs.F.bound x hx) (aniso_le (mu0 := mu0) hm.1 hm.2.1 hm.2.2.1 hm.2.2.2 (hs.u.size x hx)) (hs.S.bound x hx)
  unfold localField
  linarith

include hG hp h0 hr

theorem field_near {m : Prm} {mu0 : ℝ} (hm : Axes m) :
    |WeakForm.work G p (fun j => interpField p (fun i => q.phi (p i)) + q.F (ptGauss G p j)
          + SemiDiscrete.anisoField m mu0 (interpV G (fun i => q.u (p i)) j) + q.S (ptGauss G p j)) (fun i => w (p i))
        - tetIntegral p (fun x => (localField m mu0 q r x).dot (w x))| ≤
      tetVolume p * (18 / 5 * (N * P * (κ / 4 + 6 + 2 * anisoRate m mu0) * h)) := by
  have hc := anisoRate_nonneg m mu0
  have hk := kappa_nonneg h0 hr
  have v0 := inTet_vertex p 0
  have hc' : anisoRate m mu0 ≤ P * anisoRate m mu0 := le_mul_of_one_le_left hc hP
  have hN' : N * anisoRate m mu0 ≤ N * (P * anisoRate m mu0) := mul_le_mul_of_nonneg_left hc' hN
  set c := anisoRate m mu0 with hcd
  have hP0 : 0 ≤ P := zero_le_one.trans hP
  set K := N * P * (6 + 2 * c) with hK
  have hl : ∀ x y, InTet p x → InTet p y →
      |(localField m mu0 q r y).dot (w y) - (localField m mu0 q r x).dot (w x)| ≤ K * (y - x).norm := by
    intro x y hx hy
    rw [dot_comm' (localField m mu0 q r y), dot_comm' (localField m mu0 q r x)]
    refine (dot_near' (hs.w.size y hy) (localField_le hP hN hs hm hx) (hs.w.slope x y hx hy)
      (localField_near hP hN hs hm hx hy)).trans ?_
    have := mul_le_mul_of_nonneg_right hN' (norm_nonneg (y - x))
    rw [hK]
    nlinarith
  refine quad_lip hG hp hr.edge _ _ K (N * P * (κ / 4 + 6 + 2 * c) * h) (by positivity) ?_ hl fun j => ?_
  · have : 0 ≤ N * P * (κ / 4) * h := by positivity
    rw [hK]
    linarith
  · have hg := inTet_gauss hG p j
    have near : ∀ H : V3 → V3, Gentle (InTet p) H P N → (H (ptGauss G p j) - H (p 0)).norm ≤ N * h := fun H hH =>
      (hH.lip _ _ v0 hg).trans (mul_le_mul_of_nonneg_left (inTet_near hr.edge hg) hN)
    have uj : (interpV G (fun i => q.u (p i)) j).norm ≤ 1 :=
      mean_le (fun i => a_nonneg hG i j) (G.a_sum j) _ fun i => hs.u.size _ (inTet_vertex p i)
    have un : (interpV G (fun i => q.u (p i)) j - q.u (p 0)).norm ≤ N * h :=
      mean_near (fun i => a_nonneg hG i j) (G.a_sum j) (fun i => q.u (p i)) (q.u (p 0)) fun i =>
        (hs.u.slope _ _ v0 (inTet_vertex p i)).trans (mul_le_mul_of_nonneg_left (hr.edge i 0) hN)
    have wj : (interpV G (fun i => w (p i)) j).norm ≤ P :=
      mean_le (fun i => a_nonneg hG i j) (G.a_sum j) _ fun i => hs.w.size _ (inTet_vertex p i)
    have wn : (interpV G (fun i => w (p i)) j - w (p 0)).norm ≤ N * h :=
      mean_near (fun i => a_nonneg hG i j) (G.a_sum j) (fun i => w (p i)) (w (p 0)) fun i =>
        (hs.w.slope _ _ v0 (inTet_vertex p i)).trans (mul_le_mul_of_nonneg_left (hr.edge i 0) hN)
    have an := (aniso_near (mu0 := mu0) hm.1 hm.2.1 hm.2.2.1 hm.2.2.2 uj (hs.u.size _ v0)).trans
      (mul_le_mul_of_nonneg_left un hc)
    have fn := add4_near (grad_near hp h0 hr hs.phi hN) (near q.F hs.F) an (near q.S hs.S)
    rw [dot_comm' _ (interpV G (fun i => w (p i)) j), dot_comm' _ (w (p 0))]
    refine (dot_near' wj (localField_le (mu0 := mu0) hP hN hs hm v0) wn fn).trans ?_
    have := mul_le_mul_of_nonneg_right hN' h0.le
    have n : 0 ≤ N * P * h := by positivity
    rw [← hcd]
    linarith

omit hP in
theorem damping_near (hP0 : 0 ≤ P) (alpha : ℝ) :
    |WeakForm.damping G p (fun _ => alpha) (fun i => q.v (p i)) (fun i => w (p i))
        - alpha * tetIntegral p (fun x => (q.v x).dot (w x))| ≤ tetVolume p * (18 / 5 * (2 * P * N * |alpha| * h)) := by
  have hl : ∀ x y, InTet p x → InTet p y → |(q.v y).dot (w y) - (q.v x).dot (w x)| ≤ 2 * P * N * (y - x).norm := fun x y hx hy =>
    (dot_near' (hs.v.bound y hy) (hs.w.size x hx) (hs.v.lip x y hx hy) (hs.w.slope x y hx hy)).trans (le_of_eq (by ring))
  have := lumped_near hG hp hr.edge (fun x => (q.v x).dot (w x)) (2 * P * N) (by positivity) hl
  have e : WeakForm.damping G p (fun _ => alpha) (fun i => q.v (p i)) (fun i => w (p i)) =
      alpha * ∑ j, weight G p j * interpS G (fun i => (q.v (p i)).dot (w (p i))) j := by
    rw [WeakForm.damping, Finset.mul_sum]
    exact Finset.sum_congr rfl fun j _ => by ring
  rw [e, ← mul_sub, abs_mul]
  have := mul_le_mul_of_nonneg_left this (abs_nonneg alpha)
  linarith

theorem gyration_near :
    |WeakForm.gyration G p (fun i => q.u (p i)) (fun i => q.v (p i)) (fun i => w (p i))
        - tetIntegral p (fun x => ((q.u x).cross (q.v x)).dot (w x))| ≤ tetVolume p * (18 / 5 * (3 * P ^ 2 * N * h)) := by
  have hP0 : 0 ≤ P := zero_le_one.trans hP
  refine lumped_near hG hp hr.edge (fun x => ((q.u x).cross (q.v x)).dot (w x)) (3 * P ^ 2 * N) (by positivity) fun x y hx hy => ?_
  have hb : ((q.u y).cross (q.v y)).norm ≤ P := by
    refine (cross_le _ _).trans ?_
    have := mul_le_mul (hs.u.size y hy) (hs.v.bound y hy) (norm_nonneg _) zero_le_one
    linarith
  refine (dot_near' hb (hs.w.size x hx)
    (cross_near (hs.u.size y hy) (hs.v.bound x hx) (hs.u.slope x y hx hy) (hs.v.lip x y hx hy)) (hs.w.slope x y hx hy)).trans ?_
  have n := mul_nonneg hN (norm_nonneg (y - x))
  have : P * (N * (y - x).norm) ≤ P ^ 2 * (N * (y - x).norm) := by
    refine mul_le_mul_of_nonneg_right ?_ n
    nlinarith
  nlinarith

include hL

/-- rate of the error on one element of unit volume -/
noncomputable def llgRate (m : Prm) (mu0 κ P N L h : ℝ) : ℝ :=
  18 / 5 * (2 * P * N * |m.alpha| + 3 * P ^ 2 * N + N * P * (κ / 4 + 6 + 2 * anisoRate m mu0))
    + |2 * m.A / (mu0 * m.Ms)| * (6 * N * L + 39 / 20 * κ * L * (2 * N + κ / 4 * L * h))

theorem tetLlg_near {m : Prm} {mu0 : ℝ} (hm : Axes m) :
    |(WeakForm.damping G p (fun _ => m.alpha) (fun i => q.v (p i)) (fun i => w (p i))
        + WeakForm.gyration G p (fun i => q.u (p i)) (fun i => q.v (p i)) (fun i => w (p i))
        - SemiDiscrete.tetWork G m mu0 p (fun i => q.u (p i)) (fun i => q.phi (p i)) (fun j => q.F (ptGauss G p j))
            (fun j => q.S (ptGauss G p j)) (fun i => w (p i)))
      - (m.alpha * tetIntegral p (fun x => (q.v x).dot (w x)) + tetIntegral p (fun x => ((q.u x).cross (q.v x)).dot (w x))
        - (-(2 * m.A / (mu0 * m.Ms)) * tetIntegral p (gradDens (q.D r) E)
          + tetIntegral p (fun x => (localField m mu0 q r x).dot (w x))))| ≤
      tetVolume p * (llgRate m mu0 κ P N L h * h) := by
  have n1 := damping_near hG hp h0 hr hN hs (zero_le_one.trans hP) m.alpha
  have n2 := gyration_near hG hp h0 hr hP hN hs
  have n3 := gradDot_near hG hp h0 hr hN hL (hs.u.mono hP) hs.w
  have n4 := field_near hG hp h0 hr hP hN hs (mu0 := mu0) hm
  have n5 := mul_le_mul_of_nonneg_left n3 (abs_nonneg (2 * m.A / (mu0 * m.Ms)))
  rw [← abs_mul, mul_sub] at n5
  rw [SemiDiscrete.tetWork, llgRate]
  rw [abs_le] at n1 n2 n4 n5 ⊢
  constructor <;> nlinarith [n1.1, n1.2, n2.1, n2.2, n4.1, n4.2, n5.1, n5.2]

end element

/-! ### surfaces -/

theorem surface_near {H : TriElem.Rule} (hH : TriCompiled H) {p : Fin 3 → V3} {u w : V3 → V3} {k : V3} (hk : k.norm ≤ 1) {P N h : ℝ}
    (hP : 1 ≤ P) (hN : 0 ≤ N) (hu : Gentle (InTri p) u 1 N) (hw : Gentle (InTri p) w P N) (hr : ∀ i j, (p i - p j).norm ≤ h) :
    |∑ j, TriElem.weight H p j * k.dot (TriElem.interpV H (fun i => u (p i)) j) * k.dot (TriElem.interpV H (fun i => w (p i)) j)
        - triIntegral p (fun x => k.dot (u x) * k.dot (w x))| ≤ triArea p * (25 / 8 * (2 * P * N * h)) := by
  have v0 := inTri_vertex p 0
  have hh : 0 ≤ h := (norm_nonneg _).trans (hr 0 0)
  have hP0 : 0 ≤ P := zero_le_one.trans hP
  have key : ∀ {a b c d : V3} {e : ℝ}, a.norm ≤ 1 → d.norm ≤ P → (a - b).norm ≤ e → (c - d).norm ≤ e →
      |k.dot a * k.dot c - k.dot b * k.dot d| ≤ 2 * P * e := by
    intro a b c d e ha hd h1 h2
    have e0 : 0 ≤ e := (norm_nonneg _).trans h1
    have d1 : |k.dot a| ≤ 1 := by
      have := Rounded.abs_dot_le k a
      nlinarith [norm_nonneg k, norm_nonneg a]
    have d2 : |k.dot d| ≤ P := by
      have := Rounded.abs_dot_le k d
      nlinarith [norm_nonneg k, norm_nonneg d]
    have d3 : |k.dot (a - b)| ≤ e := by
      have := Rounded.abs_dot_le k (a - b)
      nlinarith [norm_nonneg k, norm_nonneg (a - b)]
    have d4 : |k.dot (c - d)| ≤ e := by
      have := Rounded.abs_dot_le k (c - d)
      nlinarith [norm_nonneg k, norm_nonneg (c - d)]
    have eq : k.dot a * k.dot c - k.dot b * k.dot d = k.dot (a - b) * k.dot d + k.dot a * k.dot (c - d) := by
      simp only [V3.dot, V3.sub_x, V3.sub_y, V3.sub_z]
      ring
    rw [eq]
    refine (abs_add_le _ _).trans ?_
    rw [abs_mul, abs_mul]
    have m1 := mul_le_mul d3 d2 (abs_nonneg _) e0
    have m2 := mul_le_mul d1 d4 (abs_nonneg _) zero_le_one
    nlinarith
  have hint : ∀ (f : V3 → V3) (R : ℝ), Gentle (InTri p) f R N → ∀ j, (TriElem.interpV H (fun i => f (p i)) j).norm ≤ R := by
    intro f R hf j
    have h := mean3_near (fun i => tri_a_nonneg hH i j) (H.a_sum j) (fun i => f (p i)) 0 (e := R) fun i => by
      have : f (p i) - 0 = f (p i) := by ext <;> simp
      rw [this]
      exact hf.bound _ (inTri_vertex p i)
    have e : (∑ i, H.a i j * f (p i)) - 0 = TriElem.interpV H (fun i => f (p i)) j := by
      rw [TriElem.interpV]
      ext <;> simp
    rwa [e] at h
  have hnear : ∀ (f : V3 → V3) (R : ℝ), Gentle (InTri p) f R N → ∀ j,
      (TriElem.interpV H (fun i => f (p i)) j - f (p 0)).norm ≤ N * h := fun f R hf j =>
    mean3_near (fun i => tri_a_nonneg hH i j) (H.a_sum j) (fun i => f (p i)) (f (p 0)) fun i =>
      (hf.lip _ _ v0 (inTri_vertex p i)).trans (mul_le_mul_of_nonneg_left (hr i 0) hN)
  have hl : ∀ x y, InTri p x → InTri p y → |k.dot (u y) * k.dot (w y) - k.dot (u x) * k.dot (w x)| ≤ 2 * P * N * (y - x).norm := by
    intro x y hx hy
    refine (key (hu.bound y hy) (hw.bound x hx) (hu.lip x y hx hy) (hw.lip x y hx hy)).trans (le_of_eq (by ring))
  have hq := tri_quad_near hH p (fun j => k.dot (TriElem.interpV H (fun i => u (p i)) j) * k.dot (TriElem.interpV H (fun i => w (p i)) j))
    (fun x => k.dot (u x) * k.dot (w x)) (k.dot (u (p 0)) * k.dot (w (p 0))) (2 * P * (N * h)) (2 * P * (N * h)) (by positivity)
    (tri_integrable hl)
    (fun j => key (hint u 1 hu j) (hw.bound _ v0) (hnear u 1 hu j) (hnear w P hw j))
    (fun x hx => (hl _ _ v0 hx).trans (by
      have := mul_le_mul_of_nonneg_left (inTri_near hr hx) (show 0 ≤ 2 * P * N by positivity)
      linarith))
  have e : ∀ j, TriElem.weight H p j * k.dot (TriElem.interpV H (fun i => u (p i)) j) * k.dot (TriElem.interpV H (fun i => w (p i)) j)
      = TriElem.weight H p j * (k.dot (TriElem.interpV H (fun i => u (p i)) j) * k.dot (TriElem.interpV H (fun i => w (p i)) j)) :=
    fun j => mul_assoc _ _ _
  simp only [e]
  exact hq.trans (le_of_eq (by ring))

end Verif.Continuum
