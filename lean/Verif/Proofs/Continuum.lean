import Verif.Proofs.Rounded
import Verif.Proofs.TetVolume
import Verif.Props.Tetra

/-!
# Errors of quadrature and of finite element derivatives on one tetrahedron
-/

namespace Verif.Continuum

open MeasureTheory Verif.Tetra Verif.Rounded

/-! ### lengths -/

theorem norm_sum_le' {n : ℕ} (f : Fin n → V3) : (∑ i, f i).norm ≤ ∑ i, (f i).norm := by
  induction n with
  | zero =>
    simp only [Finset.univ_eq_empty, Finset.sum_empty]
    exact (norm_le le_rfl (by simp [V3.nsq])).trans le_rfl
  | succ n ih =>
    rw [Fin.sum_univ_succ, Fin.sum_univ_succ]
    exact (norm_add_le' _ _).trans (add_le_add le_rfl (ih _))

theorem norm_sub_comm (a b : V3) : (a - b).norm = (b - a).norm := by
  rw [← norm_neg' (a - b)]
  congr 1
  ext <;> simp

theorem comp_le (a : V3) (d : Fin 3) : |a.comp d| ≤ a.norm := by
  refine abs_le_of_sq_le_sq ?_ (norm_nonneg a)
  rw [norm_sq]
  fin_cases d <;> simp only [V3.comp, V3.nsq] <;> nlinarith [mul_self_nonneg a.x, mul_self_nonneg a.y, mul_self_nonneg a.z]

theorem cross_le (a b : V3) : (a.cross b).norm ≤ a.norm * b.norm := by
  refine norm_le (mul_nonneg (norm_nonneg a) (norm_nonneg b)) ?_
  rw [mul_pow, norm_sq, norm_sq]
  simp only [V3.cross, V3.nsq]
  nlinarith [mul_self_nonneg (a.x * b.x + a.y * b.y + a.z * b.z)]

/-! ### points of a tetrahedron -/

theorem inTet_vertex (p : Fin 4 → V3) (k : Fin 4) : InTet p (p k) := by
  refine ⟨fun i => if i = k then 1 else 0, fun i => by dsimp only; split_ifs <;> norm_num, by simp, ?_⟩
  fin_cases k <;> ext <;> simp [Fin.sum_univ_four]

/-- means of values close to `c` are close to `c` -/
theorem mean_near {l : Fin 4 → ℝ} (h0 : ∀ i, 0 ≤ l i) (h1 : ∑ i, l i = 1) (f : Fin 4 → V3) (c : V3) {e : ℝ}
    (h : ∀ i, (f i - c).norm ≤ e) : ((∑ i, l i * f i) - c).norm ≤ e := by
  have e1 : (∑ i, l i * f i) - c = ∑ i, l i * (f i - c) := by
    rw [Fin.sum_univ_four] at h1
    have : l 0 = 1 - l 1 - l 2 - l 3 := by linarith
    ext <;> simp [Fin.sum_univ_four, this] <;> ring
  rw [e1]
  refine (norm_sum_le' _).trans ?_
  calc ∑ i, (l i * (f i - c)).norm ≤ ∑ i, l i * e := by
        refine Finset.sum_le_sum fun i _ => ?_
        rw [norm_smul', abs_of_nonneg (h0 i)]
        exact mul_le_mul_of_nonneg_left (h i) (h0 i)
    _ = e := by rw [← Finset.sum_mul, h1, one_mul]

theorem inTet_near {p : Fin 4 → V3} {h : ℝ} (hp : ∀ i j, (p i - p j).norm ≤ h) {x : V3} (hx : InTet p x) :
    (x - p 0).norm ≤ h := by
  obtain ⟨l, h0, h1, rfl⟩ := hx
  exact mean_near h0 h1 p (p 0) fun i => hp i 0

/-! ### the quadrature -/

theorem a_nonneg {G : Rule} (hG : Compiled G) (i : Fin 4) (j : Fin G.n) : 0 ≤ G.a i j := by
  rcases hG with rfl | rfl
  · change Fin 1 at j
    fin_cases j
    fin_cases i <;> simp [Rule.a, rule1] <;> norm_num
  · change Fin 5 at j
    fin_cases j <;> fin_cases i <;> simp [Rule.a, rule5] <;> norm_num

theorem sum_abs_pds {G : Rule} (hG : Compiled G) : ∑ j, |G.pds j| ≤ 13 / 30 := by
  rcases hG with rfl | rfl
  · have h : ∀ f : Fin rule1.n → ℝ, ∑ j, f j = f (0 : Fin 1) := fun f => Fin.sum_univ_one (f : Fin 1 → ℝ)
    rw [h]
    simp [rule1]
    norm_num
  · have h : ∀ f : Fin rule5.n → ℝ, ∑ j, f j = f (0 : Fin 5) + f (1 : Fin 5) + f (2 : Fin 5) + f (3 : Fin 5) + f (4 : Fin 5) :=
      fun f => Fin.sum_univ_five (f : Fin 5 → ℝ)
    rw [h]
    simp [rule5, abs_div]
    norm_num

theorem calcVol_lebesgue {G : Rule} (hG : Compiled G) {p : Fin 4 → V3} (hp : 0 < detJ p) : calcVol G p = tetVolume p := by
  rw [calcVol_eq hG.ok, tetVolume_eq, abs_of_pos hp]

/-- the sum over the Gauss points against the integral -/
theorem quad_near {G : Rule} (hG : Compiled G) {p : Fin 4 → V3} (hp : 0 < detJ p) (F : Fin G.n → ℝ) (f : V3 → ℝ) (c e1 e2 : ℝ)
    (hf : IntegrableOn (fun x => f (ofPt x)) (tetSet p)) (h1 : ∀ j, |F j - c| ≤ e1)
    (h2 : ∀ x, InTet p x → |f x - c| ≤ e2) :
    |∑ j, weight G p j * F j - tetIntegral p f| ≤ tetVolume p * (13 / 5 * e1 + e2) := by
  have hi := tetIntegral_near p f c e2 hf h2
  have hv : detJ p = 6 * tetVolume p := by
    rw [tetVolume_eq, abs_of_pos hp]
    ring
  have hs : ∑ j, weight G p j * F j - tetVolume p * c = ∑ j, weight G p j * (F j - c) := by
    rw [← calcVol_lebesgue hG hp, calcVol, Finset.sum_mul, ← Finset.sum_sub_distrib]
    exact Finset.sum_congr rfl fun j _ => by ring
  have he : |∑ j, weight G p j * F j - tetVolume p * c| ≤ tetVolume p * (13 / 5 * e1) := by
    rw [hs]
    refine (Finset.abs_sum_le_sum_abs _ _).trans ?_
    have he1 : 0 ≤ e1 := by
      have hn : 0 < G.n := by
        rcases hG with rfl | rfl
        · exact Nat.one_pos
        · exact Nat.succ_pos 4
      exact (abs_nonneg _).trans (h1 ⟨0, hn⟩)
    calc ∑ j, |weight G p j * (F j - c)| ≤ ∑ j, |G.pds j| * (detJ p * e1) := by
          refine Finset.sum_le_sum fun j _ => ?_
          rw [abs_mul, weight, abs_mul, abs_of_pos hp]
          have := mul_le_mul_of_nonneg_left (h1 j) (mul_nonneg hp.le (abs_nonneg (G.pds j)))
          linarith
      _ = (∑ j, |G.pds j|) * (detJ p * e1) := by rw [Finset.sum_mul]
      _ ≤ 13 / 30 * (detJ p * e1) := mul_le_mul_of_nonneg_right (sum_abs_pds hG) (mul_nonneg hp.le he1)
      _ = tetVolume p * (13 / 5 * e1) := by rw [hv]; ring
  have := abs_sub_le (∑ j, weight G p j * F j) (tetVolume p * c) (tetIntegral p f)
  rw [abs_sub_comm] at hi
  linarith

/-- a function of a smooth field is integrable over a tetrahedron -/
theorem integrable_of_lip {p : Fin 4 → V3} {f : V3 → ℝ} {K : ℝ}
    (h : ∀ x y, InTet p x → InTet p y → |f y - f x| ≤ K * (y - x).norm) : IntegrableOn (fun x => f (ofPt x)) (tetSet p) := by
  refine ContinuousOn.integrableOn_compact (isCompact_tetSet p) ?_
  intro x hx
  rw [ContinuousWithinAt, tendsto_iff_norm_sub_tendsto_zero]
  have hc : Continuous fun y : Pt => K * (ofPt y - ofPt x).norm := by
    have : (fun y : Pt => K * (ofPt y - ofPt x).norm) = fun y : Pt => K * Real.sqrt ((y 0 - x 0) * (y 0 - x 0)
        + (y 1 - x 1) * (y 1 - x 1) + (y 2 - x 2) * (y 2 - x 2)) := rfl
    rw [this]
    fun_prop
  have ht : Filter.Tendsto (fun y : Pt => K * (ofPt y - ofPt x).norm) (nhdsWithin x (tetSet p)) (nhds 0) := by
    have h0 := (hc.tendsto x).mono_left (nhdsWithin_le_nhds (s := tetSet p))
    have : K * (ofPt x - ofPt x).norm = 0 := by
      have : (ofPt x - ofPt x).norm = 0 := by simp [V3.norm, V3.nsq]
      rw [this, mul_zero]
    rwa [this] at h0
  refine squeeze_zero' (Filter.Eventually.of_forall fun _ => _root_.norm_nonneg _) ?_ ht
  filter_upwards [self_mem_nhdsWithin] with y hy
  exact h _ _ hx hy

/-! ### finite element derivatives -/

theorem daRow_le {p : Fin 4 → V3} (hp : 0 < detJ p) {h κ : ℝ} (h0 : 0 < h) (hr : Regular h κ p) (i : Fin 3) :
    (daRow p i.succ).norm ≤ κ / 6 / h := by
  have hv : detJ p = 6 * tetVolume p := by
    rw [tetVolume_eq, abs_of_pos hp]
    ring
  have hc : ∀ a b, (V3.cross (p a - p 0) (p b - p 0)).norm ≤ h ^ 2 := by
    intro a b
    refine (cross_le _ _).trans ?_
    nlinarith [hr.edge a 0, hr.edge b 0, norm_nonneg (p a - p 0), norm_nonneg (p b - p 0)]
  have hn : (gradNum p i.succ).norm ≤ h ^ 2 := by
    fin_cases i
    · exact hc 2 3
    · exact hc 3 1
    · exact hc 1 2
  rw [daRow_eq, norm_smul', abs_of_pos (inv_pos.mpr hp), inv_mul_le_iff₀ hp]
  refine hn.trans ?_
  have := hr.vol
  rw [hv, div_div, mul_div_assoc', le_div_iff₀ (by positivity)]
  nlinarith

theorem kappa_nonneg {p : Fin 4 → V3} {h κ : ℝ} (h0 : 0 < h) (hr : Regular h κ p) : 0 ≤ κ := by
  by_contra hk
  have : 0 ≤ tetVolume p := by rw [tetVolume_eq]; positivity
  have := hr.vol
  have : 0 < h ^ 3 := by positivity
  nlinarith

theorem da_comp (p : Fin 4 → V3) (i : Fin 4) (d : Fin 3) : da p i d = (daRow p i).comp d := by
  fin_cases d <;> rfl

theorem lip_nonneg {p : Fin 4 → V3} (hp : 0 < detJ p) {B : V3 → Prop} {u : V3 → V3} {D : Fin 3 → V3 → V3} {M L : ℝ}
    (hs : Smooth B u D M L) (hB : ∀ x, InTet p x → B x) : 0 ≤ L := by
  by_contra hL
  have h1 := hs.lip 0 (p 0) (p 1) (hB _ (inTet_vertex p 0)) (hB _ (inTet_vertex p 1))
  have h2 := norm_nonneg (D 0 (p 1) - D 0 (p 0))
  have h3 : 0 < (p 1 - p 0).norm := by
    rcases (norm_nonneg (p 1 - p 0)).lt_or_eq with h | h
    · exact h
    · exfalso
      have h5 : (p 1 - p 0).nsq = 0 := by rw [← norm_sq, ← h]; ring
      have h6 := Tetra.nsq_eq_zero h5
      rw [detJ_eq, h6] at hp
      simp [V3.dot] at hp
  nlinarith

theorem deriv_near {p : Fin 4 → V3} (hp : 0 < detJ p) {h κ : ℝ} (h0 : 0 < h) (hr : Regular h κ p) {B : V3 → Prop} {u : V3 → V3}
    {D : Fin 3 → V3 → V3} {M L : ℝ} (hs : Smooth B u D M L) (hB : ∀ x, InTet p x → B x) (d : Fin 3) :
    (deriv p d (fun i => u (p i)) - D d (p 0)).norm ≤ κ / 4 * L * h := by
  let c : V3 := u (p 0) - (p 0).x * D 0 (p 0) - (p 0).y * D 1 (p 0) - (p 0).z * D 2 (p 0)
  have haff := (C35_affine_vector rule1 p hp.ne' c (fun k => D k (p 0))).2 d
  dsimp only at haff
  set r : Fin 4 → V3 := fun i => u (p i) - (u (p 0) + (p i - p 0).x * D 0 (p 0) + (p i - p 0).y * D 1 (p 0)
    + (p i - p 0).z * D 2 (p 0)) with hr'
  have e : deriv p d (fun i => u (p i)) - D d (p 0) = ∑ i, da p i d * r i := by
    rw [← haff]
    simp only [Tetra.deriv, Fin.sum_univ_four, hr', c]
    ext <;> simp <;> ring
  have hk : 0 ≤ κ := by
    by_contra hk
    have : 0 ≤ tetVolume p := by rw [tetVolume_eq]; positivity
    have := hr.vol
    have : 0 < h ^ 3 := by positivity
    nlinarith
  have hr0 : (r 0).norm = 0 := by
    have : r 0 = 0 := by
      simp only [hr']
      ext <;> simp
    rw [this]
    simp [V3.norm, V3.nsq]
  have hri : ∀ i, (r i).norm ≤ L / 2 * h ^ 2 := by
    intro i
    refine (hs.taylor (p 0) (p i) (hB _ (inTet_vertex p 0)) (hB _ (inTet_vertex p i))).trans ?_
    have hL := lip_nonneg hp hs hB
    have := hr.edge i 0
    have := norm_nonneg (p i - p 0)
    gcongr
  rw [e, Fin.sum_univ_succ]
  refine (norm_add_le' _ _).trans ?_
  rw [norm_smul', hr0, mul_zero, zero_add]
  refine (norm_sum_le' _).trans ?_
  calc ∑ i : Fin 3, (da p i.succ d * r i.succ).norm ≤ ∑ i : Fin 3, κ / 6 / h * (L / 2 * h ^ 2) := by
        refine Finset.sum_le_sum fun i _ => ?_
        rw [norm_smul']
        refine mul_le_mul ?_ (hri _) (norm_nonneg _) (by positivity)
        rw [da_comp]
        exact (comp_le _ _).trans (daRow_le hp h0 hr i)
    _ = κ / 4 * L * h := by
        rw [Finset.sum_const, Finset.card_univ, Fintype.card_fin]
        simp
        field_simp
        ring

/-! ### energies of one element -/

theorem abs_sq_sub (a b : V3) : |a.norm ^ 2 - b.norm ^ 2| ≤ (a - b).norm * (a.norm + b.norm) := by
  have h1 := norm_lower (a - b) (-b)
  have e1 : |a.norm - b.norm| ≤ (a - b).norm := by
    have h2 := norm_add_le' (a - b) b
    have h3 := norm_add_le' (b - a) a
    have e2 : a - b + b = a := by ext <;> simp
    have e3 : b - a + a = b := by ext <;> simp
    rw [e2] at h2
    rw [e3, norm_sub_comm b a] at h3
    rw [abs_le]
    constructor <;> linarith
  have e : a.norm ^ 2 - b.norm ^ 2 = (a.norm - b.norm) * (a.norm + b.norm) := by ring
  rw [e, abs_mul, abs_of_nonneg (add_nonneg (norm_nonneg a) (norm_nonneg b))]
  exact mul_le_mul_of_nonneg_right e1 (add_nonneg (norm_nonneg a) (norm_nonneg b))

section element

variable {G : Rule} (hG : Compiled G) {p : Fin 4 → V3} (hp : 0 < detJ p) {h κ : ℝ} {B : V3 → Prop}
  {u : V3 → V3} {D : Fin 3 → V3 → V3} {M L : ℝ} (hs : Smooth B u D M L) (hB : ∀ x, InTet p x → B x)

include hp hs hB

omit hp in
theorem slope_nonneg : 0 ≤ M := (norm_nonneg _).trans (hs.bound 0 (p 0) (hB _ (inTet_vertex p 0)))

omit hp in
theorem gradSq_lip {x y : V3} (hx : InTet p x) (hy : InTet p y) : |gradSq D y - gradSq D x| ≤ 6 * M * L * (y - x).norm := by
  rw [gradSq, gradSq, ← Finset.sum_sub_distrib]
  refine (Finset.abs_sum_le_sum_abs _ _).trans ?_
  have hM := slope_nonneg hs hB
  calc ∑ d, |(D d y).norm ^ 2 - (D d x).norm ^ 2| ≤ ∑ d : Fin 3, L * (y - x).norm * (M + M) := by
        refine Finset.sum_le_sum fun d _ => (abs_sq_sub _ _).trans ?_
        have h1 := hs.lip d x y (hB _ hx) (hB _ hy)
        refine mul_le_mul h1 (add_le_add (hs.bound d y (hB _ hy)) (hs.bound d x (hB _ hx)))
          (add_nonneg (norm_nonneg _) (norm_nonneg _)) ((norm_nonneg _).trans h1)
    _ = 6 * M * L * (y - x).norm := by
        rw [Finset.sum_const, Finset.card_univ, Fintype.card_fin]
        simp
        ring

/-- relative error of the exchange energy -/
noncomputable def exchangeRate (κ M L h : ℝ) : ℝ := (6 * M * L + 39 / 20 * κ * L * (2 * M + κ / 4 * L * h)) * h

include hG in
theorem exchange_near (h0 : 0 < h) (hr : Regular h κ p) (m : Prm) :
    |exchangeEnergy G m p (fun i => u (p i)) - m.A * tetIntegral p (gradSq D)| ≤
      |m.A| * (tetVolume p * exchangeRate κ M L h) := by
  have hM := slope_nonneg hs hB
  have hL := lip_nonneg hp hs hB
  have b0 := hB _ (inTet_vertex p 0)
  have hq := quad_near hG hp (fun _ => ∑ d, (Tetra.deriv p d (fun i => u (p i))).norm ^ 2) (gradSq D) (gradSq D (p 0))
    (3 * (κ / 4 * L * h * (2 * M + κ / 4 * L * h))) (6 * M * L * h)
    (integrable_of_lip fun x y hx hy => gradSq_lip hs hB hx hy)
    (fun _ => by
      rw [gradSq, ← Finset.sum_sub_distrib]
      refine (Finset.abs_sum_le_sum_abs _ _).trans ?_
      calc ∑ d, |(Tetra.deriv p d (fun i => u (p i))).norm ^ 2 - (D d (p 0)).norm ^ 2|
          ≤ ∑ d : Fin 3, κ / 4 * L * h * (2 * M + κ / 4 * L * h) := by
            refine Finset.sum_le_sum fun d _ => (abs_sq_sub _ _).trans ?_
            have h1 := deriv_near hp h0 hr hs hB d
            refine mul_le_mul h1 ?_ (add_nonneg (norm_nonneg _) (norm_nonneg _)) ((norm_nonneg _).trans h1)
            have h2 := hs.bound d (p 0) b0
            have h3 := norm_add_le' (Tetra.deriv p d (fun i => u (p i)) - D d (p 0)) (D d (p 0))
            have e : Tetra.deriv p d (fun i => u (p i)) - D d (p 0) + D d (p 0) = Tetra.deriv p d (fun i => u (p i)) := by
              ext <;> simp
            rw [e] at h3
            linarith
        _ = _ := by
            rw [Finset.sum_const, Finset.card_univ, Fintype.card_fin]
            simp)
    (fun x hx => (gradSq_lip hs hB (inTet_vertex p 0) hx).trans
      (mul_le_mul_of_nonneg_left (inTet_near hr.edge hx) (by positivity)))
  have e : exchangeEnergy G m p (fun i => u (p i)) - m.A * tetIntegral p (gradSq D) =
      m.A * (∑ j, weight G p j * (∑ d, (Tetra.deriv p d (fun i => u (p i))).norm ^ 2) - tetIntegral p (gradSq D)) := by
    simp only [exchangeEnergy, Fin.sum_univ_three, norm_sq]
    ring
  rw [e, abs_mul]
  refine mul_le_mul_of_nonneg_left (hq.trans (le_of_eq ?_)) (abs_nonneg _)
  rw [exchangeRate]
  ring

omit hp in
include hG in
theorem interp_le (j : Fin G.n) : (interpV G (fun i => u (p i)) j).norm ≤ 1 := by
  have h := mean_near (fun i => a_nonneg hG i j) (G.a_sum j) (fun i => u (p i)) 0 (e := 1) fun i => by
    have : u (p i) - 0 = u (p i) := by ext <;> simp
    rw [this, hs.unit _ (hB _ (inTet_vertex p i))]
  have e : (∑ i, G.a i j * u (p i)) - 0 = interpV G (fun i => u (p i)) j := by
    rw [interpV]
    ext <;> simp
  rwa [e] at h

omit hp in
include hG in
theorem interp_near (hr : ∀ i j, (p i - p j).norm ≤ h) (j : Fin G.n) :
    (interpV G (fun i => u (p i)) j - u (p 0)).norm ≤ M * h :=
  mean_near (fun i => a_nonneg hG i j) (G.a_sum j) (fun i => u (p i)) (u (p 0)) fun i =>
    (hs.slope _ _ (hB _ (inTet_vertex p 0)) (hB _ (inTet_vertex p i))).trans
      (mul_le_mul_of_nonneg_left (hr i 0) (slope_nonneg hs hB))

include hG in
/-- an energy whose density is a function of the magnetization -/
theorem density_near (hr : ∀ i j, (p i - p j).norm ≤ h) (F : V3 → ℝ) (K : ℝ) (hK : 0 ≤ K)
    (hF : ∀ a b : V3, a.norm ≤ 1 → b.norm ≤ 1 → |F a - F b| ≤ K * (a - b).norm) :
    |∑ j, weight G p j * F (interpV G (fun i => u (p i)) j) - tetIntegral p (fun x => F (u x))| ≤
      tetVolume p * (18 / 5 * (K * M * h)) := by
  have hM := slope_nonneg hs hB
  have b0 := hB _ (inTet_vertex p 0)
  have hl : ∀ x y, InTet p x → InTet p y → |F (u y) - F (u x)| ≤ K * M * (y - x).norm := fun x y hx hy => by
    refine (hF _ _ (hs.unit _ (hB _ hy)).le (hs.unit _ (hB _ hx)).le).trans ?_
    rw [mul_assoc]
    exact mul_le_mul_of_nonneg_left (hs.slope _ _ (hB _ hx) (hB _ hy)) hK
  have hq := quad_near hG hp (fun j => F (interpV G (fun i => u (p i)) j)) (fun x => F (u x)) (F (u (p 0))) (K * M * h)
    (K * M * h) (integrable_of_lip hl)
    (fun j => by
      refine (hF _ _ (interp_le hG hs hB j) (hs.unit _ b0).le).trans ?_
      rw [mul_assoc]
      exact mul_le_mul_of_nonneg_left (interp_near hG hs hB hr j) hK)
    (fun x hx => (hl _ _ (inTet_vertex p 0) hx).trans (mul_le_mul_of_nonneg_left (inTet_near hr hx) (by positivity)))
  exact hq.trans (le_of_eq (by ring))

end element

/-! ### densities -/

theorem dot_sub_le {k : V3} (hk : k.norm ≤ 1) (a b : V3) : |a.dot k - b.dot k| ≤ (a - b).norm := by
  have e : a.dot k - b.dot k = (a - b).dot k := by
    simp only [V3.dot, V3.sub_x, V3.sub_y, V3.sub_z]
    ring
  rw [e]
  refine (Rounded.abs_dot_le _ _).trans ?_
  nlinarith [norm_nonneg (a - b)]

theorem dot_le_one {k a : V3} (hk : k.norm ≤ 1) (ha : a.norm ≤ 1) : |a.dot k| ≤ 1 := by
  refine (Rounded.abs_dot_le _ _).trans ?_
  nlinarith [norm_nonneg a, norm_nonneg k]

/-- differences of products of numbers in `[-1, 1]` -/
theorem mul_sub_le {x y x' y' e e' : ℝ} (hy : |y| ≤ 1) (hx' : |x'| ≤ 1) (h1 : |x - x'| ≤ e) (h2 : |y - y'| ≤ e') :
    |x * y - x' * y'| ≤ e + e' := by
  have e0 : x * y - x' * y' = (x - x') * y + x' * (y - y') := by ring
  rw [e0]
  refine (abs_add_le _ _).trans (add_le_add ?_ ?_)
  · rw [abs_mul]
    nlinarith [abs_nonneg (x - x'), abs_nonneg y]
  · rw [abs_mul]
    nlinarith [abs_nonneg (y - y'), abs_nonneg x']

theorem uniaxial_lip {k : V3} (hk : k.norm ≤ 1) (a b : V3) (ha : a.norm ≤ 1) (hb : b.norm ≤ 1) :
    |k.dot a * k.dot a - k.dot b * k.dot b| ≤ 2 * (a - b).norm := by
  have hc : ∀ a, k.dot a = a.dot k := fun a => by simp only [V3.dot]; ring
  rw [hc, hc]
  refine (mul_sub_le (dot_le_one hk ha) (dot_le_one hk hb) (dot_sub_le hk a b) (dot_sub_le hk a b)).trans (le_of_eq (by ring))

theorem cubic_lip {e1 e2 e3 : V3} (h1 : e1.norm ≤ 1) (h2 : e2.norm ≤ 1) (h3 : e3.norm ≤ 1) (a b : V3) (ha : a.norm ≤ 1)
    (hb : b.norm ≤ 1) :
    |((a.dot e1 * a.dot e2) * (a.dot e1 * a.dot e2) + (a.dot e2 * a.dot e3) * (a.dot e2 * a.dot e3)
        + (a.dot e3 * a.dot e1) * (a.dot e3 * a.dot e1))
      - ((b.dot e1 * b.dot e2) * (b.dot e1 * b.dot e2) + (b.dot e2 * b.dot e3) * (b.dot e2 * b.dot e3)
        + (b.dot e3 * b.dot e1) * (b.dot e3 * b.dot e1))| ≤ 12 * (a - b).norm := by
  have hm : ∀ {k l : V3}, k.norm ≤ 1 → l.norm ≤ 1 →
      |(a.dot k * a.dot l) * (a.dot k * a.dot l) - (b.dot k * b.dot l) * (b.dot k * b.dot l)| ≤ 4 * (a - b).norm := by
    intro k l hk hl
    have p1 : ∀ c : V3, c.norm ≤ 1 → |c.dot k * c.dot l| ≤ 1 := fun c hc => by
      rw [abs_mul]
      exact mul_le_one₀ (dot_le_one hk hc) (abs_nonneg _) (dot_le_one hl hc)
    have q := mul_sub_le (dot_le_one hl ha) (dot_le_one hk hb) (dot_sub_le hk a b) (dot_sub_le hl a b)
    exact (mul_sub_le (p1 a ha) (p1 b hb) q q).trans (le_of_eq (by ring))
  have q1 := abs_le.mp (hm h1 h2)
  have q2 := abs_le.mp (hm h2 h3)
  have q3 := abs_le.mp (hm h3 h1)
  rw [abs_le]
  constructor <;> linarith [q1.1, q1.2, q2.1, q2.2, q3.1, q3.2]

end Verif.Continuum
