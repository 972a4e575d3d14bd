import Verif.Proofs.Continuum
import Verif.Spec.WeakForm

/-!
# Errors of the energy in a field and of surface energies
-/

namespace Verif.Continuum

open MeasureTheory Verif.Tetra Verif.Rounded

/-! ### energy in a field -/

theorem dot_near {a b c d : V3} (ha : a.norm ≤ 1) {P e1 e2 : ℝ} (hd : d.norm ≤ P) (h1 : (a - b).norm ≤ e1) (h2 : (c - d).norm ≤ e2) :
    |a.dot c - b.dot d| ≤ e1 * P + e2 := by
  have e : a.dot c - b.dot d = (a - b).dot d + a.dot (c - d) := by
    simp only [V3.dot, V3.sub_x, V3.sub_y, V3.sub_z]
    ring
  rw [e]
  refine (abs_add_le _ _).trans (add_le_add ?_ ?_)
  · exact (Rounded.abs_dot_le _ _).trans (mul_le_mul h1 hd (norm_nonneg _) ((norm_nonneg _).trans h1))
  · refine (Rounded.abs_dot_le _ _).trans ?_
    nlinarith [norm_nonneg a, norm_nonneg (c - d)]

theorem inTet_gauss {G : Rule} (hG : Compiled G) (p : Fin 4 → V3) (j : Fin G.n) : InTet p (ptGauss G p j) :=
  ⟨fun i => G.a i j, fun i => a_nonneg hG i j, G.a_sum j, rfl⟩

section element

variable {G : Rule} (hG : Compiled G) {p : Fin 4 → V3} (hp : 0 < detJ p) {h κ : ℝ} {u : V3 → V3} {D : Fin 3 → V3 → V3} {M L : ℝ}
  (hs : Smooth (InTet p) u D M L)

include hG hp hs

/-- a field known up to `e` at the Gauss points -/
theorem work_near (hr : ∀ i j, (p i - p j).norm ≤ h) {H : V3 → V3} {P N e : ℝ} (hH : Gentle (InTet p) H P N)
    (Hg : Fin G.n → V3) (hg : ∀ j, (Hg j - H (p 0)).norm ≤ e) (he : N * h ≤ e) :
    |WeakForm.work G p Hg (fun i => u (p i)) - tetIntegral p (fun x => (u x).dot (H x))| ≤
      tetVolume p * (18 / 5 * (M * h * P + e)) := by
  have hB : ∀ x, InTet p x → InTet p x := fun _ hx => hx
  have hM := slope_nonneg hs hB
  have v0 := inTet_vertex p 0
  have hP : 0 ≤ P := (norm_nonneg _).trans (hH.bound _ v0)
  have hl : ∀ x y, InTet p x → InTet p y → |(u y).dot (H y) - (u x).dot (H x)| ≤ (M * P + N) * (y - x).norm := by
    intro x y hx hy
    refine (dot_near (hs.unit _ hy).le (hH.bound _ hx) (hs.slope _ _ hx hy) (hH.lip _ _ hx hy)).trans (le_of_eq (by ring))
  have hq := quad_near hG hp (fun j => (interpV G (fun i => u (p i)) j).dot (Hg j)) (fun x => (u x).dot (H x))
    ((u (p 0)).dot (H (p 0))) (M * h * P + e) (M * h * P + e) (integrable_of_lip hl)
    (fun j => dot_near (interp_le hG hs hB j) (hH.bound _ v0) (interp_near hG hs hB hr j) (hg j))
    (fun x hx => by
      refine dot_near (hs.unit _ hx).le (hH.bound _ v0) ((hs.slope _ _ v0 hx).trans ?_) ((hH.lip _ _ v0 hx).trans ?_)
      · exact mul_le_mul_of_nonneg_left (inTet_near hr hx) hM
      · by_cases hN : 0 ≤ N
        · exact (mul_le_mul_of_nonneg_left (inTet_near hr hx) hN).trans he
        · have h1 := (norm_nonneg _).trans (hH.lip _ _ v0 hx)
          have h2 := norm_nonneg (x - p 0)
          have h3 : (x - p 0).norm = 0 := by nlinarith
          have h4 := (norm_nonneg _).trans (hH.lip _ _ v0 (inTet_vertex p 1))
          rw [h3, mul_zero]
          have hn : 0 < G.n := by
            rcases hG with rfl | rfl
            · exact Nat.one_pos
            · exact Nat.succ_pos 4
          exact (norm_nonneg _).trans (hg ⟨0, hn⟩))
  have e1 : WeakForm.work G p Hg (fun i => u (p i)) = ∑ j, weight G p j * (interpV G (fun i => u (p i)) j).dot (Hg j) := by
    refine Finset.sum_congr rfl fun j _ => ?_
    simp only [V3.dot]
    ring
  rw [e1]
  exact hq.trans (le_of_eq (by ring))

theorem zeeman_near (hr : ∀ i j, (p i - p j).norm ≤ h) {H : V3 → V3} {P N : ℝ} (hH : Gentle (InTet p) H P N) (hN : 0 ≤ N) :
    |WeakForm.work G p (fun j => H (ptGauss G p j)) (fun i => u (p i)) - tetIntegral p (fun x => (u x).dot (H x))| ≤
      tetVolume p * (18 / 5 * ((M * P + N) * h)) := by
  refine (work_near hG hp hs hr hH _ (e := N * h) (fun j => ?_) le_rfl).trans (le_of_eq (by ring))
  exact (hH.lip _ _ (inTet_vertex p 0) (inTet_gauss hG p j)).trans
    (mul_le_mul_of_nonneg_left (inTet_near hr (inTet_gauss hG p j)) hN)

omit hG hs in
theorem grad_near (h0 : 0 < h) (hr : Regular h κ p) {phi : V3 → ℝ} {g : V3 → V3} {P N : ℝ}
    (hφ : SmoothPot (InTet p) phi g P N) (hN : 0 ≤ N) :
    (interpField p (fun i => phi (p i)) - -g (p 0)).norm ≤ κ / 4 * N * h := by
  have haff := (C35_affine rule1 p hp.ne' (phi (p 0) - (g (p 0)).dot (p 0)) (g (p 0))).2.2
  set r : Fin 4 → ℝ := fun i => phi (p i) - (phi (p 0) + (g (p 0)).dot (p i - p 0)) with hr'
  have e : interpField p (fun i => phi (p i)) - -g (p 0) = ∑ i, (-r i) * daRow p i := by
    rw [← haff]
    simp only [interpField, Fin.sum_univ_four, hr', V3.dot]
    ext <;> simp <;> ring
  have hk : 0 ≤ κ := by
    by_contra hk
    have : 0 ≤ tetVolume p := by rw [tetVolume_eq]; positivity
    have := hr.vol
    have : 0 < h ^ 3 := by positivity
    nlinarith
  have hr0 : r 0 = 0 := by
    simp [hr', V3.dot]
  have hri : ∀ i, |r i| ≤ N / 2 * h ^ 2 := by
    intro i
    refine (hφ.taylor (p 0) (p i) (inTet_vertex p 0) (inTet_vertex p i)).trans ?_
    have := hr.edge i 0
    have := norm_nonneg (p i - p 0)
    gcongr
  rw [e, Fin.sum_univ_succ]
  refine (norm_add_le' _ _).trans ?_
  rw [norm_smul', hr0, neg_zero, abs_zero, zero_mul, zero_add]
  refine (norm_sum_le' _).trans ?_
  calc ∑ i : Fin 3, ((-r i.succ) * daRow p i.succ).norm ≤ ∑ i : Fin 3, (N / 2 * h ^ 2) * (κ / 6 / h) := by
        refine Finset.sum_le_sum fun i _ => ?_
        rw [norm_smul', abs_neg]
        exact mul_le_mul (hri _) (daRow_le hp h0 hr i) (norm_nonneg _) (by positivity)
    _ = κ / 4 * N * h := by
        rw [Finset.sum_const, Finset.card_univ, Fintype.card_fin]
        simp
        field_simp
        ring

theorem demag_near (h0 : 0 < h) (hr : Regular h κ p) {phi : V3 → ℝ} {g : V3 → V3} {P N : ℝ}
    (hφ : SmoothPot (InTet p) phi g P N) (hN : 0 ≤ N) :
    |WeakForm.work G p (fun _ => interpField p (fun i => phi (p i))) (fun i => u (p i))
        - tetIntegral p (fun x => (u x).dot (-g x))| ≤
      tetVolume p * (18 / 5 * ((M * P + (κ / 4 + 1) * N) * h)) := by
  have hk : 0 ≤ κ := by
    by_contra hk
    have : 0 ≤ tetVolume p := by rw [tetVolume_eq]; positivity
    have := hr.vol
    have : 0 < h ^ 3 := by positivity
    nlinarith
  have hH : Gentle (InTet p) (fun x => -g x) P N := by
    constructor
    · intro x hx
      rw [norm_neg']
      exact hφ.bound x hx
    · intro x y hx hy
      have : -g y - -g x = -(g y - g x) := by ext <;> simp <;> ring
      rw [this, norm_neg']
      exact hφ.lip x y hx hy
  have hg := grad_near hp h0 hr hφ hN
  have n1 : 0 ≤ κ / 4 * N * h := by positivity
  have n2 : 0 ≤ N * h := by positivity
  refine (work_near hG hp hs hr.edge hH (fun _ => interpField p (fun i => phi (p i))) (e := κ / 4 * N * h + N * h)
    (fun _ => hg.trans (by linarith)) (by linarith)).trans (le_of_eq (by ring))

end element

/-! ### triangles -/

/-- the two rules the code can be compiled with -/
def TriCompiled (H : TriElem.Rule) : Prop := H = TriElem.rule1 ∨ H = TriElem.rule4

theorem tri_a_nonneg {H : TriElem.Rule} (hH : TriCompiled H) (i : Fin 3) (j : Fin H.n) : 0 ≤ H.a i j := by
  rcases hH with rfl | rfl
  · change Fin 1 at j
    fin_cases j
    fin_cases i <;> simp [TriElem.Rule.a, TriElem.rule1] <;> norm_num
  · change Fin 4 at j
    fin_cases j <;> fin_cases i <;> simp [TriElem.Rule.a, TriElem.rule4] <;> norm_num

theorem tri_ok {H : TriElem.Rule} (hH : TriCompiled H) : H.Ok := by
  rcases hH with rfl | rfl
  · exact TriElem.rule1_ok
  · exact TriElem.rule4_ok

theorem tri_sum_abs_pds {H : TriElem.Rule} (hH : TriCompiled H) : ∑ j, |H.pds j| ≤ 17 / 16 := by
  rcases hH with rfl | rfl
  · rw [TriElem.rule1_sum]
    simp [TriElem.rule1]
    norm_num
  · have h : ∀ f : Fin TriElem.rule4.n → ℝ, ∑ j, f j = f (0 : Fin 4) + f (1 : Fin 4) + f (2 : Fin 4) + f (3 : Fin 4) :=
      fun f => Fin.sum_univ_four (f : Fin 4 → ℝ)
    rw [h]
    simp [TriElem.rule4, abs_div]
    norm_num

theorem surf_eq (p : Fin 3 → V3) : TriElem.surf p = triArea p := by
  unfold TriElem.surf triArea TriElem.normalVect
  ring

theorem triArea_nonneg (p : Fin 3 → V3) : 0 ≤ triArea p := by
  rw [← surf_eq]
  exact TriElem.surf_nonneg p

theorem inTri_vertex (p : Fin 3 → V3) (k : Fin 3) : InTri p (p k) := by
  fin_cases k
  · exact ⟨![0, 0], fun i => by fin_cases i <;> simp, by simp, by ext <;> simp [triPoint]⟩
  · exact ⟨![1, 0], fun i => by fin_cases i <;> simp, by simp, by ext <;> simp [triPoint]⟩
  · exact ⟨![0, 1], fun i => by fin_cases i <;> simp, by simp, by ext <;> simp [triPoint]⟩

theorem mean3_near {l : Fin 3 → ℝ} (h0 : ∀ i, 0 ≤ l i) (h1 : ∑ i, l i = 1) (f : Fin 3 → V3) (c : V3) {e : ℝ}
    (h : ∀ i, (f i - c).norm ≤ e) : ((∑ i, l i * f i) - c).norm ≤ e := by
  have e1 : (∑ i, l i * f i) - c = ∑ i, l i * (f i - c) := by
    rw [Fin.sum_univ_three] at h1
    have : l 0 = 1 - l 1 - l 2 := by linarith
    ext <;> simp [Fin.sum_univ_three, this] <;> ring
  rw [e1]
  refine (norm_sum_le' _).trans ?_
  calc ∑ i, (l i * (f i - c)).norm ≤ ∑ i, l i * e := by
        refine Finset.sum_le_sum fun i _ => ?_
        rw [norm_smul', abs_of_nonneg (h0 i)]
        exact mul_le_mul_of_nonneg_left (h i) (h0 i)
    _ = e := by rw [← Finset.sum_mul, h1, one_mul]

theorem inTri_near {p : Fin 3 → V3} {h : ℝ} (hp : ∀ i j, (p i - p j).norm ≤ h) {x : V3} (hx : InTri p x) :
    (x - p 0).norm ≤ h := by
  obtain ⟨q, h0, h1, rfl⟩ := hx
  rw [Fin.sum_univ_two] at h1
  have := mean3_near (l := ![1 - q 0 - q 1, q 0, q 1]) (fun i => by
    fin_cases i
    · show 0 ≤ 1 - q 0 - q 1
      linarith
    · exact h0 0
    · exact h0 1) (by simp [Fin.sum_univ_three]; ring) p (p 0) fun i => hp i 0
  have e : triPoint p q = ∑ i, ![1 - q 0 - q 1, q 0, q 1] i * p i := by
    unfold triPoint
    ext <;> simp [Fin.sum_univ_three] <;> ring
  rw [e]
  exact this

theorem triIntegral_near (p : Fin 3 → V3) (f : V3 → ℝ) (c e : ℝ)
    (hf : IntegrableOn (fun q => f (triPoint p q)) (refSet 2)) (h : ∀ x, InTri p x → |f x - c| ≤ e) :
    |triIntegral p f - triArea p * c| ≤ triArea p * e := by
  have hvol : volume (refSet 2) = ENNReal.ofReal (1 / 2) := by
    rw [volume_refSet]
    norm_num
  have hv : volume (refSet 2) < ⊤ := by
    rw [hvol]
    exact ENNReal.ofReal_lt_top
  have hvr : volume.real (refSet 2) = 1 / 2 := by
    rw [Measure.real, hvol, ENNReal.toReal_ofReal (by norm_num)]
  have e1 : ∫ q in refSet 2, (f (triPoint p q) - c) = (∫ q in refSet 2, f (triPoint p q)) - 1 / 2 * c := by
    rw [integral_sub hf (integrableOn_const hv.ne), setIntegral_const, hvr]
    rfl
  have h2 := norm_setIntegral_le_of_norm_le_const (f := fun q => f (triPoint p q) - c) (C := e) hv
    fun q hq => h _ ⟨q, hq.1, hq.2, rfl⟩
  rw [e1, hvr, Real.norm_eq_abs] at h2
  have e2 : triIntegral p f - triArea p * c = 2 * triArea p * ((∫ q in refSet 2, f (triPoint p q)) - 1 / 2 * c) := by
    unfold triIntegral refSet
    ring
  rw [e2, abs_mul, abs_of_nonneg (by linarith [triArea_nonneg p])]
  have := mul_le_mul_of_nonneg_left h2 (show 0 ≤ 2 * triArea p by linarith [triArea_nonneg p])
  linarith

theorem tri_quad_near {H : TriElem.Rule} (hH : TriCompiled H) (p : Fin 3 → V3) (F : Fin H.n → ℝ) (f : V3 → ℝ) (c e1 e2 : ℝ)
    (he1 : 0 ≤ e1) (hf : IntegrableOn (fun q => f (triPoint p q)) (refSet 2)) (h1 : ∀ j, |F j - c| ≤ e1)
    (h2 : ∀ x, InTri p x → |f x - c| ≤ e2) :
    |∑ j, TriElem.weight H p j * F j - triIntegral p f| ≤ triArea p * (17 / 8 * e1 + e2) := by
  have hi := triIntegral_near p f c e2 hf h2
  have hA := triArea_nonneg p
  have hs : ∑ j, TriElem.weight H p j * F j - triArea p * c = ∑ j, TriElem.weight H p j * (F j - c) := by
    rw [← surf_eq, ← TriElem.sum_weight (tri_ok hH), Finset.sum_mul, ← Finset.sum_sub_distrib]
    exact Finset.sum_congr rfl fun j _ => by ring
  have he : |∑ j, TriElem.weight H p j * F j - triArea p * c| ≤ triArea p * (17 / 8 * e1) := by
    rw [hs]
    refine (Finset.abs_sum_le_sum_abs _ _).trans ?_
    calc ∑ j, |TriElem.weight H p j * (F j - c)| ≤ ∑ j, |H.pds j| * (2 * triArea p * e1) := by
          refine Finset.sum_le_sum fun j _ => ?_
          rw [abs_mul, TriElem.weight, abs_mul, surf_eq, abs_of_nonneg (by linarith : 0 ≤ 2 * triArea p)]
          have := mul_le_mul_of_nonneg_left (h1 j) (mul_nonneg (by linarith : 0 ≤ 2 * triArea p) (abs_nonneg (H.pds j)))
          linarith
      _ = (∑ j, |H.pds j|) * (2 * triArea p * e1) := by rw [Finset.sum_mul]
      _ ≤ 17 / 16 * (2 * triArea p * e1) := mul_le_mul_of_nonneg_right (tri_sum_abs_pds hH) (by positivity)
      _ = triArea p * (17 / 8 * e1) := by ring
  have := abs_sub_le (∑ j, TriElem.weight H p j * F j) (triArea p * c) (triIntegral p f)
  rw [abs_sub_comm] at hi
  linarith

theorem tri_integrable {p : Fin 3 → V3} {f : V3 → ℝ} {K : ℝ}
    (h : ∀ x y, InTri p x → InTri p y → |f y - f x| ≤ K * (y - x).norm) :
    IntegrableOn (fun q => f (triPoint p q)) (refSet 2) := by
  refine ContinuousOn.integrableOn_compact (isCompact_refSet 2) ?_
  intro x hx
  rw [ContinuousWithinAt, tendsto_iff_norm_sub_tendsto_zero]
  have hc : Continuous fun y : Fin 2 → ℝ => K * (triPoint p y - triPoint p x).norm := by
    unfold V3.norm V3.nsq triPoint
    simp only [V3.sub_x, V3.sub_y, V3.sub_z, V3.add_x, V3.add_y, V3.add_z, V3.smul_x, V3.smul_y, V3.smul_z]
    fun_prop
  have ht : Filter.Tendsto (fun y : Fin 2 → ℝ => K * (triPoint p y - triPoint p x).norm) (nhdsWithin x (refSet 2)) (nhds 0) := by
    have h0 := (hc.tendsto x).mono_left (nhdsWithin_le_nhds (s := refSet 2))
    have : K * (triPoint p x - triPoint p x).norm = 0 := by
      have : (triPoint p x - triPoint p x).norm = 0 := by simp [V3.norm, V3.nsq]
      rw [this, mul_zero]
    rwa [this] at h0
  refine squeeze_zero' (Filter.Eventually.of_forall fun _ => _root_.norm_nonneg _) ?_ ht
  filter_upwards [self_mem_nhdsWithin] with y hy
  exact h _ _ ⟨x, hx.1, hx.2, rfl⟩ ⟨y, hy.1, hy.2, rfl⟩

/-- a surface energy whose density is a function of the magnetization -/
theorem tri_density_near {H : TriElem.Rule} (hH : TriCompiled H) {p : Fin 3 → V3} {u : V3 → V3} {M h : ℝ}
    (hs : Gentle (InTri p) u 1 M) (hM : 0 ≤ M) (hr : ∀ i j, (p i - p j).norm ≤ h) (F : V3 → ℝ) (K : ℝ) (hK : 0 ≤ K)
    (hF : ∀ a b : V3, a.norm ≤ 1 → b.norm ≤ 1 → |F a - F b| ≤ K * (a - b).norm) :
    |∑ j, TriElem.weight H p j * F (TriElem.interpV H (fun i => u (p i)) j) - triIntegral p (fun x => F (u x))| ≤
      triArea p * (25 / 8 * (K * M * h)) := by
  have v0 := inTri_vertex p 0
  have hh : 0 ≤ h := (norm_nonneg _).trans (hr 0 0)
  have hl : ∀ x y, InTri p x → InTri p y → |F (u y) - F (u x)| ≤ K * M * (y - x).norm := fun x y hx hy => by
    refine (hF _ _ (hs.bound _ hy) (hs.bound _ hx)).trans ?_
    rw [mul_assoc]
    exact mul_le_mul_of_nonneg_left (hs.lip _ _ hx hy) hK
  have hint : ∀ j, (TriElem.interpV H (fun i => u (p i)) j).norm ≤ 1 := by
    intro j
    have h := mean3_near (fun i => tri_a_nonneg hH i j) (H.a_sum j) (fun i => u (p i)) 0 (e := 1) fun i => by
      have : u (p i) - 0 = u (p i) := by ext <;> simp
      rw [this]
      exact hs.bound _ (inTri_vertex p i)
    have e : (∑ i, H.a i j * u (p i)) - 0 = TriElem.interpV H (fun i => u (p i)) j := by
      rw [TriElem.interpV]
      ext <;> simp
    rwa [e] at h
  have hq := tri_quad_near hH p (fun j => F (TriElem.interpV H (fun i => u (p i)) j)) (fun x => F (u x)) (F (u (p 0))) (K * M * h)
    (K * M * h) (by positivity) (tri_integrable hl)
    (fun j => by
      refine (hF _ _ (hint j) (hs.bound _ v0)).trans ?_
      rw [mul_assoc]
      refine mul_le_mul_of_nonneg_left ?_ hK
      exact mean3_near (fun i => tri_a_nonneg hH i j) (H.a_sum j) (fun i => u (p i)) (u (p 0)) fun i =>
        (hs.lip _ _ v0 (inTri_vertex p i)).trans (mul_le_mul_of_nonneg_left (hr i 0) hM))
    (fun x hx => (hl _ _ v0 hx).trans (mul_le_mul_of_nonneg_left (inTri_near hr hx) (by positivity)))
  exact hq.trans (le_of_eq (by ring))

end Verif.Continuum
