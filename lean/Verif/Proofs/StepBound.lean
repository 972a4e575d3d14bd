import Verif.Proofs.LocalError
import Verif.Props.Energy

/-!
# Bound of the velocity and local error of a time step
-/

namespace Verif.SemiDiscrete

open Verif.Mesh Verif.Tetra Verif.WeakForm Verif.Llg Verif.Energy Set

namespace Setting

variable {n : ℕ} {S : Setting n}

/-- work of the rate field -/
noncomputable def rateWork (S : Setting n) (z : ℝ × X n) (W : X n) (w : ℕ → V3) : ℝ :=
  (S.tets.map fun t => WeakForm.work S.G (fun k => S.p (t.ind k)) (S.rate z W t) (fun k => w (t.ind k))).sum

/-- the bilinear form of the exchange -/
noncomputable def exch (S : Setting n) (v w : ℕ → V3) : ℝ :=
  (S.tets.map fun t => 2 * (S.prm t.reg).A / (S.mu0 * (S.prm t.reg).Ms) * calcVol S.G (fun k => S.p (t.ind k))
      * gradDot (fun k => S.p (t.ind k)) (fun k => v (t.ind k)) (fun k => w (t.ind k))).sum

theorem pert_eq (z : ℝ × X n) (W : X n) (q : ℝ) (v w : ℕ → V3) :
    pert S.G S.prm S.mu0 S.tets S.p (S.rate z W) q v w = S.rateWork z W w - q * S.exch v w := rfl

theorem rateWork_smul (z : ℝ × X n) (W : X n) (a : ℝ) (w : ℕ → V3) : S.rateWork z W (fun k => a * w k) = a * S.rateWork z W w := by
  unfold rateWork
  rw [← List.sum_map_mul_left]
  refine congrArg List.sum (List.map_congr_left fun t _ => ?_)
  unfold WeakForm.work interpV
  rw [Finset.mul_sum]
  refine Finset.sum_congr rfl fun j _ => ?_
  have : ∑ i, S.G.a i j * (a * w (t.ind i)) = a * ∑ i, S.G.a i j * w (t.ind i) := by
    ext <;> simp only [V3.sum_x, V3.sum_y, V3.sum_z, V3.smul_x, V3.smul_y, V3.smul_z, Finset.mul_sum] <;>
      exact Finset.sum_congr rfl fun _ _ => by ring
  rw [this, dot_smul]
  ring

theorem exch_smul (a : ℝ) (v w : ℕ → V3) : S.exch v (fun k => a * w k) = a * S.exch v w := by
  unfold exch
  rw [← List.sum_map_mul_left]
  refine congrArg List.sum (List.map_congr_left fun t _ => ?_)
  have h := gradDot_lin (fun k => S.p (t.ind k)) (fun k => v (t.ind k)) (fun k => w (t.ind k)) (fun k => w (t.ind k)) a 0
  have e : (fun k => a * w (t.ind k) + (0 : ℝ) * w (t.ind k)) = fun k => a * w (t.ind k) := by
    funext k
    ext <;> simp
  rw [e] at h
  rw [h]
  ring

theorem work_smul (z : ℝ × X n) (a : ℝ) (w : ℕ → V3) : S.work z (fun k => a * w k) = a * S.work z w := by
  have h := work_lin (S := S) z w w a 0
  have e : (fun k => a * w k + (0 : ℝ) * w k) = fun k => a * w k := by
    funext k
    ext <;> simp
  rw [e] at h
  rw [h]
  ring

theorem exch_self_nonneg (hS : S.Good) (v : ℕ → V3) : 0 ≤ S.exch v v := by
  refine List.sum_nonneg fun x hx => ?_
  obtain ⟨t, ht, rfl⟩ := List.mem_map.mp hx
  refine mul_nonneg (mul_nonneg (hS.exch t ht) ?_) (gradDot_self_nonneg _ _)
  rw [calcVol_eq hS.compiled.ok]
  linarith [hS.vol t ht]

/-- the values at nodes which are not magnetic do not matter -/
theorem stepEq_mask (hS : S.Good) {z : ℝ × X n} {W : X n} {dt q : ℝ} {v v' : ℕ → V3} (h : S.StepEq z W dt q v)
    (he : ∀ i, S.magN i → v' i = v i) : S.StepEq z W dt q v' := by
  have e : ∀ t ∈ S.tets, (fun k => v' (t.ind k)) = fun k => v (t.ind k) := fun t ht => funext fun k => he _ (hS.tetMag t ht k)
  refine ⟨fun i hi => by rw [he i hi]; exact h.1 i hi, fun w hw => ?_⟩
  have h1 := h.2 w hw
  have e1 : pert S.G S.prm S.mu0 S.tets S.p (S.rate z W) q v' w = pert S.G S.prm S.mu0 S.tets S.p (S.rate z W) q v w := by
    rw [pert_eq, pert_eq]
    unfold exch
    rw [List.map_congr_left fun t ht => by rw [e t ht]]
  rw [e1, ← h1]
  exact congrArg List.sum (List.map_congr_left fun t ht => by rw [e t ht])

/-- testing the equation of a step with the velocity -/
theorem energy_bound (hS : S.Good) {z : ℝ × X n} {W : X n} {dt q : ℝ} {v : ℕ → V3} (hdt : 0 < dt) (hq : 0 ≤ q)
    (h : S.StepEq z W dt q v) (i : ℕ) : S.dmpEff z dt i * (v i).dot (v i) ≤ S.work z v + dt * S.rateWork z W v := by
  have h1 := h.2 v h.1
  rw [List.sum_map_add, pert_eq] at h1
  have h2 : (S.tets.map fun t => gyration S.G (fun k => S.p (t.ind k)) (fun k => vecs z.2 (t.ind k)) (fun k => v (t.ind k))
      (fun k => v (t.ind k))).sum = 0 := List.sum_eq_zero fun x hx => by
    obtain ⟨t, _, rfl⟩ := List.mem_map.mp hx
    exact gyration_self _ _ _
  have h3 : S.dmpEff z dt i * (v i).dot (v i) ≤ _ :=
    lumpD_le hS.compiled hS.vol hS.alpha (fun t ht j => C38_bounds S.gamma0 dt _ (S.par z t j) hS.gamma0 hdt (hS.alpha t ht)) v i
  have h4 := mul_nonneg (mul_nonneg hdt.le hq) (exch_self_nonneg hS v)
  nlinarith

/-- **bounds of a step** -/
theorem step_bounds (hS : S.Good) (t0 T Q : ℝ) :
    ∃ Vb C δ, 0 < Vb ∧ 0 < C ∧ 0 < δ ∧ ∀ z : ℝ × X n, z.1 ∈ Icc t0 T → S.Admissible z.2 → ∀ W : X n, ‖W‖ ≤ S.gamma0 * Vb →
      ∀ dt q v, 0 < dt → dt ≤ δ → 0 ≤ q → q ≤ Q → S.StepEq z W dt q v → ∀ i, S.magN i →
        ‖co (v i)‖ ≤ Vb ∧ ‖co (v i - S.vel z i)‖ ≤ C * dt := by
  classical
  set K1 : Set (ℝ × X n) := Icc t0 T ×ˢ Metric.closedBall 0 1 with hK1
  have hK1c : IsCompact K1 := isCompact_Icc.prod (isCompact_closedBall _ _)
  have hsv : ∀ {Z : Type} [NormedAddCommGroup Z] [NormedSpace ℝ Z] {c : Z → X n} (_ : ContDiff ℝ 1 c) (k : ℕ), SmoothV fun a => vecs (c a) k :=
    fun hc k => smooth_vecs hc k
  have hvs : ∀ (a : ℝ) (w : X n), vecs (a • w) = fun k => a * vecs w k := fun a w => funext fun k => vecs_smul a w k
  obtain ⟨d, hd, hdmp⟩ := dmp_lower hS
  obtain ⟨B4, hB4, hclose⟩ := dmpEff_close hS hK1c
  obtain ⟨B1, hB1, hwork⟩ := hom_bound (f := fun a : (ℝ × X n) × X n => S.work a.1 (vecs a.2))
    (smooth_work hS contDiff_fst (fun k => hsv contDiff_snd k)).continuous hK1c (fun z a w => by
      simp only [hvs, work_smul])
  set Vb := 2 * (B1 + 1) / d with hVb
  have hVb0 : 0 < Vb := by positivity
  have hK2c : IsCompact (K1 ×ˢ Metric.closedBall (0 : X n) (S.gamma0 * Vb)) := hK1c.prod (isCompact_closedBall _ _)
  obtain ⟨B2, hB2, hrate⟩ := hom_bound (f := fun a : ((ℝ × X n) × X n) × X n => S.rateWork a.1.1 a.1.2 (vecs a.2))
    (smooth_list S.tets _ fun t _ => SemiDiscrete.smooth_work _ (fun j =>
      ⟨(smooth_rate hS t j).x.comp contDiff_fst, (smooth_rate hS t j).y.comp contDiff_fst, (smooth_rate hS t j).z.comp contDiff_fst⟩)
      (fun k => hsv contDiff_snd _)).continuous hK2c (fun z a w => by
      simp only [hvs, rateWork_smul])
  obtain ⟨B3, hB3, hexch⟩ := hom_bound (f := fun a : X n × X n => S.exch (vecs a.1) (vecs a.2))
    (smooth_list S.tets _ fun t _ => contDiff_const.mul (smooth_gradDot _ (fun k => hsv contDiff_fst _) (fun k => hsv contDiff_snd _))).continuous
    (isCompact_closedBall (0 : X n) Vb) (fun z a w => by simp only [hvs, exch_smul])
  refine ⟨Vb, (B2 + |Q| * B3 + 3 * B4 * Vb + 1) / d, min (d / 2 / B4) (1 / B2), hVb0, by positivity,
    lt_min (by positivity) (by positivity), ?_⟩
  intro z hz hc W hW dt q v' hdt hδ hq hqQ h' i hi
  obtain ⟨v, hvm, hv0⟩ : ∃ v : ℕ → V3, (∀ k, S.magN k → v k = v' k) ∧ ∀ k, ¬ S.magN k → v k = 0 :=
    ⟨fun k => if S.magN k then v' k else 0, fun k hk => if_pos hk, fun k hk => if_neg hk⟩
  have h := stepEq_mask hS h' hvm
  rw [← hvm i hi]
  clear h' hvm
  have hzK : z ∈ K1 := ⟨hz, mem_closedBall_zero_iff.mpr (norm_le_one hc)⟩
  have hWK : (z, W) ∈ K1 ×ˢ Metric.closedBall (0 : X n) (S.gamma0 * Vb) := ⟨hzK, mem_closedBall_zero_iff.mpr hW⟩
  have hvn : ∀ k, ¬ k < n → v k = 0 := fun k hk => hv0 k fun hm => hk (hS.magTet k hm).1
  have hvv : vecs (coords n v) = v := vecs_coords' v hvn
  have hδ1 : dt * B4 ≤ d / 2 := by
    have := hδ.trans (min_le_left _ _)
    rwa [le_div_iff₀ hB4] at this
  have hδ2 : dt * B2 ≤ 1 := by
    have := hδ.trans (min_le_right _ _)
    rwa [le_div_iff₀ hB2] at this
  have hlow : ∀ k, S.magN k → d / 2 ≤ S.dmpEff z dt k := by
    intro k hk
    have h1 := (abs_le.mp (hclose z hzK dt hdt k)).1
    have h2 := hdmp k hk
    linarith
  -- the velocity is bounded
  have hbound : ‖coords n v‖ ≤ Vb := by
    have h1 := hwork z hzK (coords n v)
    have h2 := hrate (z, W) hWK (coords n v)
    dsimp only at h1 h2
    rw [hvv] at h1 h2
    set N := ‖coords n v‖ with hN
    have hN0 : 0 ≤ N := norm_nonneg _
    have h3 : ∀ k, k < n → ‖co (v k)‖ ≤ Real.sqrt (Vb * N) := by
      intro k hk
      refine Real.le_sqrt_of_sq_le ?_
      by_cases hm : S.magN k
      · have h4 := energy_bound hS hdt hq h k
        have h5 := norm_co_sq (v k)
        have h6 : d / 2 * ‖co (v k)‖ ^ 2 ≤ (B1 + 1) * N := by
          have h7 : d / 2 * ‖co (v k)‖ ^ 2 ≤ S.dmpEff z dt k * (v k).dot (v k) :=
            mul_le_mul (hlow k hm) h5 (sq_nonneg _) ((by positivity : (0 : ℝ) ≤ d / 2).trans (hlow k hm))
          have h8 := (le_abs_self _).trans h1
          have h9 := (le_abs_self _).trans h2
          have h10 : dt * S.rateWork z W v ≤ dt * (B2 * N) := mul_le_mul_of_nonneg_left h9 hdt.le
          have h11 : dt * B2 * N ≤ 1 * N := mul_le_mul_of_nonneg_right hδ2 hN0
          nlinarith
        have e : Vb * N = (B1 + 1) * N / (d / 2) := by rw [hVb]; field_simp
        rw [e, le_div_iff₀ (by positivity)]
        linarith
      · rw [hv0 k hm, co_zero, norm_zero]
        have := mul_nonneg hVb0.le hN0
        simpa using this
    have h4 : N ≤ Real.sqrt (Vb * N) := norm_coords_le (Real.sqrt_nonneg _) h3
    have h5 : N ^ 2 ≤ Vb * N := by
      calc N ^ 2 ≤ Real.sqrt (Vb * N) ^ 2 := by gcongr
        _ = Vb * N := Real.sq_sqrt (mul_nonneg hVb0.le hN0)
    by_contra hcon
    push Not at hcon
    nlinarith
  have hin : i < n := (hS.magTet i hi).1
  have hvi : ‖co (v i)‖ ≤ Vb := (norm_co_le_coords v i hin).trans hbound
  refine ⟨hvi, ?_⟩
  -- comparison with the equation discretised in space
  set e := v i - S.vel z i with he
  have hu1 := (hc i hin).1 hi
  have het : e.dot (vecs z.2 i) = 0 := by
    rw [he, sub_dot3, h.1 i hi]
    unfold vel
    rw [nodeVel_tangent _ _ _ _ hu1, sub_zero]
  have h1 := node_step h i e het
  have h2 := node_vel hS hc i hi e het
  rw [pert_eq] at h1
  have h3 : S.dmp i * e.dot e = dt * (S.rateWork z W (single i e) - q * S.exch v (single i e))
      - (S.dmpEff z dt i - S.dmp i) * (v i).dot e := by
    have h4 : S.dmp i * e.dot e = S.dmp i * (v i).dot e + lumpG S.G S.tets S.p i * ((vecs z.2 i).cross (v i)).dot e
        - (S.dmp i * (S.vel z i).dot e + lumpG S.G S.tets S.p i * ((vecs z.2 i).cross (S.vel z i)).dot e) := by
      rw [he]
      simp only [V3.dot, V3.cross, V3.sub_x, V3.sub_y, V3.sub_z]
      ring
    rw [h4, h2]
    linear_combination h1
  have hsv' : vecs (coords n (single i e)) = single i e := vecs_coords' _ fun k hk => by
    unfold single
    rw [if_neg]
    rintro rfl
    exact hk hin
  have h4 := hrate (z, W) hWK (coords n (single i e))
  have h5 := hexch (coords n v) (mem_closedBall_zero_iff.mpr hbound) (coords n (single i e))
  dsimp only at h4 h5
  rw [hsv'] at h4 h5
  rw [hvv] at h5
  have hr := norm_coords_single (n := n) i e
  set r := ‖co e‖ with hrd
  have hr0 : 0 ≤ r := norm_nonneg _
  have h6 : S.rateWork z W (single i e) ≤ B2 * r := ((le_abs_self _).trans h4).trans (mul_le_mul_of_nonneg_left hr hB2.le)
  have h7 : |S.exch v (single i e)| ≤ B3 * r := h5.trans (mul_le_mul_of_nonneg_left hr hB3.le)
  have h8 : |(S.dmpEff z dt i - S.dmp i) * (v i).dot e| ≤ dt * B4 * (3 * (Vb * r)) := by
    rw [abs_mul]
    refine mul_le_mul (hclose z hzK dt hdt i) ((abs_dot_le _ _).trans ?_) (abs_nonneg _) (by positivity)
    have : ‖co (v i)‖ * ‖co e‖ ≤ Vb * r := mul_le_mul_of_nonneg_right hvi hr0
    linarith
  have h9 : -(q * S.exch v (single i e)) ≤ |Q| * (B3 * r) := by
    refine (neg_le_abs _).trans ?_
    rw [abs_mul, abs_of_nonneg hq]
    exact mul_le_mul (hqQ.trans (le_abs_self _)) h7 (abs_nonneg _) (abs_nonneg _)
  have h10 : d * r ^ 2 ≤ dt * (B2 * r + |Q| * (B3 * r)) + dt * B4 * (3 * (Vb * r)) := by
    have h11 : d * r ^ 2 ≤ S.dmp i * e.dot e :=
      mul_le_mul (hdmp i hi) (norm_co_sq e) (sq_nonneg _) (hd.le.trans (hdmp i hi))
    have h12 : dt * (S.rateWork z W (single i e) - q * S.exch v (single i e)) ≤ dt * (B2 * r + |Q| * (B3 * r)) :=
      mul_le_mul_of_nonneg_left (by linarith) hdt.le
    have h13 := neg_le_abs ((S.dmpEff z dt i - S.dmp i) * (v i).dot e)
    linarith
  rw [div_mul_eq_mul_div, le_div_iff₀ hd]
  rcases hr0.eq_or_lt with h0 | h0
  · rw [← h0, zero_mul]
    positivity
  · have h11 : d * r ≤ dt * (B2 + |Q| * B3 + 3 * B4 * Vb) := by
      refine le_of_mul_le_mul_right ?_ h0
      nlinarith
    nlinarith

theorem co_add (a b : V3) : co (a + b) = co a + co b := by
  funext k
  fin_cases k <;> simp [co]

theorem co_sub (a b : V3) : co (a - b) = co a - co b := by
  funext k
  fin_cases k <;> simp [co]

theorem co_smul (a : ℝ) (b : V3) : co (a * b) = a • co b := by
  funext k
  fin_cases k <;> simp [co]

/-- distance moved by the normalization -/
theorem normalize_close (u x : V3) (hu : u.dot u = 1) (hx : x.dot u = 0) : ‖co ((u + x).normalize - (u + x))‖ ≤ x.dot x / 2 := by
  have hn : (u + x).nsq = 1 + x.dot x := by
    have hu' : u.x * u.x + u.y * u.y + u.z * u.z = 1 := hu
    have hx' : x.x * u.x + x.y * u.y + x.z * u.z = 0 := hx
    simp only [V3.nsq, V3.dot, V3.add_x, V3.add_y, V3.add_z]
    linear_combination hu' + 2 * hx'
  have h0 : 0 ≤ x.dot x := by
    simp only [V3.dot]
    nlinarith [mul_self_nonneg x.x, mul_self_nonneg x.y, mul_self_nonneg x.z]
  have hpos : 0 < (u + x).nsq := by rw [hn]; linarith
  unfold V3.normalize
  rw [if_pos hpos, hn]
  set s := x.dot x with hs
  set y := u + x with hy
  have hr : Real.sqrt (1 + s) ^ 2 = 1 + s := Real.sq_sqrt (by linarith)
  set r := Real.sqrt (1 + s) with hrd
  have hr1 : 1 ≤ r := by rw [hrd]; exact Real.one_le_sqrt.mpr (by linarith)
  have hr2 : r - 1 ≤ s / 2 := by nlinarith
  have e : (1 / r) * y - y = (1 / r - 1) * y := by
    ext <;> simp only [V3.sub_x, V3.sub_y, V3.sub_z, V3.smul_x, V3.smul_y, V3.smul_z] <;> ring
  rw [e, co_smul, norm_smul]
  have hyn : ‖co y‖ ≤ r := by
    have h1 := norm_co_sq y
    have h2 : y.dot y = r ^ 2 := by rw [hr, ← hn]; rfl
    rw [h2] at h1
    exact (abs_le_of_sq_le_sq' h1 (by linarith)).2
  have h3 : ‖(1 / r - 1 : ℝ)‖ = 1 - 1 / r := by
    rw [Real.norm_eq_abs, abs_of_nonpos]
    · ring
    · have : 1 / r ≤ 1 := by rw [div_le_one (by linarith)]; exact hr1
      linarith
  rw [h3]
  have h4 : 0 ≤ 1 - 1 / r := by
    have : 1 / r ≤ 1 := by rw [div_le_one (by linarith)]; exact hr1
    linarith
  calc (1 - 1 / r) * ‖co y‖ ≤ (1 - 1 / r) * r := mul_le_mul_of_nonneg_left hyn h4
    _ = r - 1 := by field_simp
    _ ≤ s / 2 := hr2

open Classical in
/-- the state after a step -/
noncomputable def next (S : Setting n) (c : X n) (dt : ℝ) (v : ℕ → V3) : X n :=
  coords n fun i => if S.magN i then (vecs c i + (dt * S.gamma0) * v i).normalize else 0

open Classical in
noncomputable def nextV (S : Setting n) (v : ℕ → V3) : X n := coords n fun i => if S.magN i then S.gamma0 * v i else 0

theorem co_vecs (c : X n) (i : Fin n) : co (vecs c i) = c i := by
  funext k
  fin_cases k <;> simp [vecs, co]

/-- **local error of a step** -/
theorem local_step (hS : S.Good) (t0 T Q : ℝ) :
    ∃ Vb C δ, 0 < Vb ∧ 0 < C ∧ 0 < δ ∧ ∀ z : ℝ × X n, z.1 ∈ Icc t0 T → S.Admissible z.2 → ∀ W : X n, ‖W‖ ≤ S.gamma0 * Vb →
      ∀ dt q v, 0 < dt → dt ≤ δ → 0 ≤ q → q ≤ Q → S.StepEq z W dt q v →
        ‖S.nextV v‖ ≤ S.gamma0 * Vb ∧ ‖S.next z.2 dt v - z.2 - dt • S.rhs z‖ ≤ C * dt ^ 2 := by
  classical
  obtain ⟨Vb, C, δ, hVb, hC, hδ, hb⟩ := step_bounds hS t0 T Q
  have hg := hS.gamma0
  refine ⟨Vb, S.gamma0 ^ 2 * (3 * Vb ^ 2) / 2 + S.gamma0 * C, δ, hVb, by positivity, hδ, ?_⟩
  intro z hz hc W hW dt q v hdt hdδ hq hqQ h
  have hb' := hb z hz hc W hW dt q v hdt hdδ hq hqQ h
  constructor
  · refine norm_coords_le (by positivity) fun i _ => ?_
    split_ifs with hi
    · rw [co_smul, norm_smul, Real.norm_of_nonneg hg.le]
      exact mul_le_mul_of_nonneg_left (hb' i hi).1 hg.le
    · rw [co_zero, norm_zero]
      positivity
  · refine (pi_norm_le_iff_of_nonneg (by positivity)).mpr fun i => ?_
    have hin := i.2
    by_cases hi : S.magN i
    · obtain ⟨h1, h2⟩ := hb' i hi
      have hu1 := (hc i hin).1 hi
      have hvt := h.1 i hi
      have hxt : ((dt * S.gamma0) * v i).dot (vecs z.2 i) = 0 := by rw [smul_dot, hvt, mul_zero]
      have h3 := normalize_close (vecs z.2 i) ((dt * S.gamma0) * v i) hu1 hxt
      have e : (S.next z.2 dt v - z.2 - dt • S.rhs z) i =
          co ((vecs z.2 i + (dt * S.gamma0) * v i).normalize - (vecs z.2 i + (dt * S.gamma0) * v i))
            + (dt * S.gamma0) • co (v i - S.vel z i) := by
        change co (if S.magN i then _ else _) - z.2 i - dt • co (if S.magN i then _ else _) = _
        rw [if_pos hi, if_pos hi, co_sub, co_sub, co_add, co_smul, co_smul, co_vecs]
        funext k
        simp only [Pi.sub_apply, Pi.add_apply, Pi.smul_apply, smul_eq_mul]
        ring
      rw [e]
      refine (norm_add_le _ _).trans ?_
      have h4 : ((dt * S.gamma0) * v i).dot ((dt * S.gamma0) * v i) ≤ (dt * S.gamma0) ^ 2 * (3 * Vb ^ 2) := by
        rw [smul_dot, dot_smul]
        have h5 := (le_abs_self _).trans (abs_dot_le (v i) (v i))
        have h6 : ‖co (v i)‖ * ‖co (v i)‖ ≤ Vb * Vb := mul_le_mul h1 h1 (norm_nonneg _) hVb.le
        have h7 := mul_nonneg (sq_nonneg dt) (sq_nonneg S.gamma0)
        nlinarith
      have h5 : ‖(dt * S.gamma0) • co (v i - S.vel z i)‖ ≤ dt * S.gamma0 * (C * dt) := by
        rw [norm_smul, Real.norm_of_nonneg (by positivity)]
        exact mul_le_mul_of_nonneg_left h2 (by positivity)
      nlinarith
    · have e : (S.next z.2 dt v - z.2 - dt • S.rhs z) i = 0 := by
        change co (if S.magN i then _ else _) - z.2 i - dt • co (if S.magN i then _ else _) = _
        rw [if_neg hi, if_neg hi, ← co_vecs z.2 i, (hc i hin).2 hi, co_zero]
        simp
      rw [e, norm_zero]
      positivity

end Setting

end Verif.SemiDiscrete
