import Verif.Proofs.StepBound
import Verif.Proofs.OneStep

/-!
# Energy in a time step: bounds which do not depend on the state
-/

namespace Verif.SemiDiscrete

open Verif.Mesh Verif.Tetra Verif.WeakForm Verif.Llg Verif.Energy Set

/-- the normalization moves no farther than the step itself -/
theorem normalize_dist (u x : V3) (hu : u.dot u = 1) (hx : x.dot u = 0) :
    ((u + x).normalize - u).dot ((u + x).normalize - u) ≤ x.dot x := by
  have hn : (u + x).nsq = 1 + x.dot x := by
    have hu' : u.x * u.x + u.y * u.y + u.z * u.z = 1 := hu
    have hx' : x.x * u.x + x.y * u.y + x.z * u.z = 0 := hx
    simp only [V3.nsq, V3.dot, V3.add_x, V3.add_y, V3.add_z]
    linear_combination hu' + 2 * hx'
  have h0 : 0 ≤ x.dot x := by
    simp only [V3.dot]
    nlinarith [mul_self_nonneg x.x, mul_self_nonneg x.y, mul_self_nonneg x.z]
  have hpos : 0 < (u + x).nsq := by rw [hn]; linarith
  unfold V3.normalize
  rw [if_pos hpos, hn]
  set s := x.dot x with hs
  have hr : Real.sqrt (1 + s) ^ 2 = 1 + s := Real.sq_sqrt (by linarith)
  set r := Real.sqrt (1 + s) with hrd
  have hr1 : 1 ≤ r := by rw [hrd]; exact Real.one_le_sqrt.mpr (by linarith)
  have hr0 : 0 < r := by linarith
  have e : ((1 / r) * (u + x) - u).dot ((1 / r) * (u + x) - u) = 2 - 2 / r := by
    have hu' : u.x * u.x + u.y * u.y + u.z * u.z = 1 := hu
    have hx' : x.x * u.x + x.y * u.y + x.z * u.z = 0 := hx
    have hs' : x.x * x.x + x.y * x.y + x.z * x.z = s := rfl
    have hri : (1 / r) ^ 2 * (1 + s) = 1 := by rw [← hr]; field_simp
    simp only [V3.dot, V3.sub_x, V3.sub_y, V3.sub_z, V3.smul_x, V3.smul_y, V3.smul_z, V3.add_x, V3.add_y, V3.add_z]
    have e2 : 2 / r = 2 * (1 / r) := by ring
    rw [e2]
    linear_combination ((1 / r) ^ 2 + 1 - 2 * (1 / r)) * hu' + (2 * (1 / r) ^ 2 - 2 * (1 / r)) * hx' + (1 / r) ^ 2 * hs' + hri
  rw [e]
  have h2 : 2 - 2 / r = 2 * (r - 1) / r := by field_simp
  rw [h2, div_le_iff₀ hr0]
  nlinarith

namespace Setting

variable {n : ℕ} {S : Setting n}

/-- The fields do not depend on time, the extrapolated ones are proportional to the velocity, and the forces derive from `E`: on unit
vectors, the change of `E` is minus the work, to second order. -/
structure Grad (S : Setting n) (E : X n → ℝ) : Prop where
  Hext : ∀ t c, S.Hext (t, c) = S.Hext (0, c)
  Hst : ∀ t c, S.Hst (t, c) = S.Hst (0, c)
  phiv : ∀ c a W i, S.phiv (c, a • W) i = a * S.phiv (c, W) i
  taylor : ∃ B, ∀ c c' : X n, ‖c‖ ≤ 1 → ‖c'‖ ≤ 1 → |E c' - E c + S.work (0, c) (vecs (c' - c))| ≤ B * ‖c' - c‖ ^ 2

variable {E : X n → ℝ}

theorem Grad.work (h : Grad S E) (t : ℝ) (c : X n) (w : ℕ → V3) : S.work (t, c) w = S.work (0, c) w := by
  unfold Setting.work
  rw [h.Hext t c, h.Hst t c]

theorem Grad.stepEq (h : Grad S E) {t : ℝ} {c W : X n} {dt q : ℝ} {v : ℕ → V3} (hs : S.StepEq (t, c) W dt q v) : S.StepEq (0, c) W dt q v := by
  have e1 : S.par (t, c) = S.par (0, c) := by
    unfold Setting.par
    rw [h.Hext t c, h.Hst t c]
  have e2 : S.rate (t, c) W = S.rate (0, c) W := by
    unfold Setting.rate
    rw [h.Hst t c]
  refine ⟨hs.1, fun w hw => ?_⟩
  have := hs.2 w hw
  rw [e1, e2, h.work] at this
  exact this

theorem anisoRate_smul (m : Prm) (mu0 a : ℝ) (U V : V3) : anisoRate m mu0 U (a * V) = a * anisoRate m mu0 U V := by
  unfold anisoRate
  ext <;> simp only [cwise, V3.dot, V3.sub_x, V3.sub_y, V3.sub_z, V3.smul_x, V3.smul_y, V3.smul_z] <;> ring

theorem interpField_smul (p : Fin 4 → V3) (a : ℝ) (f : Fin 4 → ℝ) : interpField p (fun i => a * f i) = a * interpField p f := by
  unfold interpField
  ext <;> simp only [Fin.sum_univ_four, V3.neg_x, V3.neg_y, V3.neg_z, V3.add_x, V3.add_y, V3.add_z, V3.smul_x, V3.smul_y, V3.smul_z] <;> ring

theorem interpV_smul {G : Rule} (a : ℝ) (f : Fin 4 → V3) (j : Fin G.n) : interpV G (fun i => a * f i) j = a * interpV G f j := by
  unfold interpV
  ext <;> simp only [Fin.sum_univ_four, V3.add_x, V3.add_y, V3.add_z, V3.smul_x, V3.smul_y, V3.smul_z] <;> ring

theorem Grad.rateWork (h : Grad S E) (z : ℝ × X n) (a : ℝ) (W : X n) (w : ℕ → V3) : S.rateWork z (a • W) w = a * S.rateWork z W w := by
  unfold Setting.rateWork
  rw [← List.sum_map_mul_left]
  refine congrArg List.sum (List.map_congr_left fun t _ => ?_)
  unfold WeakForm.work
  rw [Finset.mul_sum]
  refine Finset.sum_congr rfl fun j _ => ?_
  have e : S.rate z (a • W) t j = a * S.rate z W t j := by
    unfold Setting.rate rateField
    have e1 : (fun k => S.phiv (z.2, a • W) (t.ind k)) = fun k => a * S.phiv (z.2, W) (t.ind k) := funext fun k => h.phiv _ _ _ _
    have e2 : (fun k => vecs (a • W) (t.ind k)) = fun k => a * vecs W (t.ind k) := funext fun k => vecs_smul a W _
    rw [e1, e2, interpField_smul, interpV_smul, anisoRate_smul]
    ext <;> simp only [V3.sub_x, V3.sub_y, V3.sub_z, V3.add_x, V3.add_y, V3.add_z, V3.smul_x, V3.smul_y, V3.smul_z] <;> ring
  rw [e, smul_dot]
  ring

/-- the bounds used below -/
structure Bd (S : Setting n) (d B1 B2 B3 B4 : ℝ) : Prop where
  hd : 0 < d
  h1 : 0 < B1
  h2 : 0 < B2
  h3 : 0 < B3
  h4 : 0 < B4
  dmp : ∀ i, S.magN i → d ≤ S.dmp i
  work : ∀ c : X n, ‖c‖ ≤ 1 → ∀ w : X n, |S.work (0, c) (vecs w)| ≤ B1 * ‖w‖
  rate : ∀ c : X n, ‖c‖ ≤ 1 → ∀ W w : X n, |S.rateWork (0, c) W (vecs w)| ≤ B2 * ‖W‖ * ‖w‖
  exch : ∀ v w : X n, |S.exch (vecs v) (vecs w)| ≤ B3 * ‖v‖ * ‖w‖
  eff : ∀ c : X n, ‖c‖ ≤ 1 → ∀ dt, 0 < dt → ∀ i, |S.dmpEff (0, c) dt i - S.dmp i| ≤ dt * B4

theorem exch_symm (v w : ℕ → V3) : S.exch v w = S.exch w v := by
  unfold exch
  refine congrArg List.sum (List.map_congr_left fun t _ => ?_)
  unfold gradDot
  rw [V3.dot_comm, V3.dot_comm (Tetra.deriv _ 1 _), V3.dot_comm (Tetra.deriv _ 2 _)]

/-- a bound for a function homogeneous in two arguments -/
theorem hom_bound2 {Z E F : Type*} [NormedAddCommGroup Z] [NormedAddCommGroup E] [NormedSpace ℝ E] [ProperSpace E]
    [NormedAddCommGroup F] [NormedSpace ℝ F] [ProperSpace F] {f : (Z × E) × F → ℝ}
    (hc : Continuous f) {K : Set Z} (hK : IsCompact K) (h1 : ∀ z (a : ℝ) v w, f ((z, a • v), w) = a * f ((z, v), w))
    (h2 : ∀ z (a : ℝ) w, f (z, a • w) = a * f (z, w)) :
    ∃ B, 0 < B ∧ ∀ z ∈ K, ∀ v w, |f ((z, v), w)| ≤ B * ‖v‖ * ‖w‖ := by
  obtain ⟨B, hB, h⟩ := hom_bound hc (hK.prod (isCompact_closedBall (0 : E) 1)) h2
  refine ⟨B, hB, fun z hz v w => ?_⟩
  by_cases hv : v = 0
  · have := h1 z 0 v w
    rw [zero_smul, zero_mul] at this
    rw [hv, this, abs_zero, norm_zero, mul_zero, zero_mul]
  · have hn : 0 < ‖v‖ := norm_pos_iff.mpr hv
    have e : v = ‖v‖ • (‖v‖⁻¹ • v) := by rw [smul_smul, mul_inv_cancel₀ hn.ne', one_smul]
    have hm : ((z, ‖v‖⁻¹ • v) : Z × E) ∈ K ×ˢ Metric.closedBall (0 : E) 1 := by
      refine ⟨hz, ?_⟩
      rw [mem_closedBall_zero_iff, norm_smul, norm_inv, norm_norm, inv_mul_cancel₀ hn.ne']
    have := h _ hm w
    have e2 : f ((z, v), w) = ‖v‖ * f ((z, ‖v‖⁻¹ • v), w) := by rw [← h1, ← e]
    rw [e2, abs_mul, abs_of_pos hn]
    nlinarith

theorem exists_bd (hS : S.Good) (h : Grad S E) : ∃ d B1 B2 B3 B4, Bd S d B1 B2 B3 B4 := by
  have hK : IsCompact (({0} : Set ℝ) ×ˢ Metric.closedBall (0 : X n) 1) := isCompact_singleton.prod (isCompact_closedBall _ _)
  have hm : ∀ c : X n, ‖c‖ ≤ 1 → ((0, c) : ℝ × X n) ∈ ({0} : Set ℝ) ×ˢ Metric.closedBall (0 : X n) 1 := fun c hc =>
    ⟨rfl, mem_closedBall_zero_iff.mpr hc⟩
  have hsv : ∀ {Z : Type} [NormedAddCommGroup Z] [NormedSpace ℝ Z] {c : Z → X n} (_ : ContDiff ℝ 1 c) (k : ℕ), SmoothV fun a => vecs (c a) k :=
    fun hc k => smooth_vecs hc k
  have hvs : ∀ (a : ℝ) (w : X n), vecs (a • w) = fun k => a * vecs w k := fun a w => funext fun k => vecs_smul a w k
  obtain ⟨d, hd, hdmp⟩ := dmp_lower hS
  obtain ⟨B4, hB4, hclose⟩ := dmpEff_close hS hK
  obtain ⟨B1, hB1, hwork⟩ := hom_bound (f := fun a : (ℝ × X n) × X n => S.work a.1 (vecs a.2))
    (smooth_work hS contDiff_fst (fun k => hsv contDiff_snd k)).continuous hK (fun z a w => by
      simp only [hvs, work_smul])
  obtain ⟨B2, hB2, hrate⟩ := hom_bound2 (f := fun a : ((ℝ × X n) × X n) × X n => S.rateWork a.1.1 a.1.2 (vecs a.2))
    (smooth_list S.tets _ fun t _ => SemiDiscrete.smooth_work _ (fun j =>
      ⟨(smooth_rate hS t j).x.comp contDiff_fst, (smooth_rate hS t j).y.comp contDiff_fst, (smooth_rate hS t j).z.comp contDiff_fst⟩)
      (fun k => hsv contDiff_snd _)).continuous hK (fun z a v w => h.rateWork z a v _) (fun z a w => by
      simp only [hvs, rateWork_smul])
  obtain ⟨B3, hB3, hexch⟩ := hom_bound2 (f := fun a : (ℝ × X n) × X n => S.exch (vecs a.1.2) (vecs a.2))
    (smooth_list S.tets _ fun t _ => contDiff_const.mul (smooth_gradDot _ (fun k => hsv (contDiff_snd.comp contDiff_fst) _)
      (fun k => hsv contDiff_snd _))).continuous
    (isCompact_singleton (x := (0 : ℝ))) (fun z a v w => by simp only [hvs]; rw [exch_symm, exch_smul, exch_symm])
    (fun z a w => by simp only [hvs, exch_smul])
  exact ⟨d, B1, B2, B3, B4, hd, hB1, hB2, hB3, hB4, hdmp, fun c hc w => hwork _ (hm c hc) w, fun c hc W w => hrate _ (hm c hc) W w,
    fun v w => hexch 0 rfl v w, fun c hc dt hdt i => hclose _ (hm c hc) dt hdt i⟩

/-- values at the magnetic nodes -/
theorem mask (S : Setting n) (v : ℕ → V3) : ∃ v' : ℕ → V3, (∀ k, S.magN k → v' k = v k) ∧ ∀ k, ¬ S.magN k → v' k = 0 := by
  classical
  exact ⟨fun k => if S.magN k then v k else 0, fun k hk => if_pos hk, fun k hk => if_neg hk⟩

theorem nextV_mask {v v' : ℕ → V3} (h : ∀ k, S.magN k → v' k = v k) : S.nextV v' = S.nextV v := by
  unfold nextV
  congr 1
  funext i
  split_ifs with hi
  · rw [h i hi]
  · rfl

theorem next_mask {c : X n} {dt : ℝ} {v v' : ℕ → V3} (h : ∀ k, S.magN k → v' k = v k) : S.next c dt v' = S.next c dt v := by
  unfold next
  congr 1
  funext i
  split_ifs with hi
  · rw [h i hi]
  · rfl

theorem nextV_eq {v : ℕ → V3} (h : ∀ k, ¬ S.magN k → v k = 0) : S.nextV v = S.gamma0 • coords n v := by
  classical
  funext i
  change co (if S.magN i then _ else _) = S.gamma0 • co (v i)
  rw [← co_smul]
  split_ifs with hi
  · rfl
  · rw [h i hi]
    congr 1
    ext <;> simp

/-- the velocity of a step against the velocity of the equation discretised in space -/
theorem Bd.vel {d B1 B2 B3 B4 : ℝ} (hb : Bd S d B1 B2 B3 B4) (hS : S.Good) {c W : X n} {dt q Q : ℝ} {v : ℕ → V3} (hc : S.Admissible c)
    (hdt : 0 < dt) (hq : 0 ≤ q) (hQ : q ≤ Q) (h' : S.StepEq (0, c) W dt q v) :
    ‖S.nextV v - S.rhs (0, c)‖ ≤ dt * ((S.gamma0 * B2 + (Q * B3 + 3 * B4)) / d) * (‖W‖ + ‖S.nextV v‖) := by
  classical
  obtain ⟨v0, hvm, hv0⟩ := mask S v
  have h := stepEq_mask hS h' hvm
  rw [← nextV_mask hvm]
  have hg := hS.gamma0
  have hd := hb.hd
  have hB2 := hb.h2
  have hB3 := hb.h3
  have hB4 := hb.h4
  have hcn : ‖c‖ ≤ 1 := norm_le_one hc
  have hvn : ∀ k, ¬ k < n → v0 k = 0 := fun k hk => hv0 k fun hm => hk (hS.magTet k hm).1
  have hvv : vecs (coords n v0) = v0 := vecs_coords' v0 hvn
  set N := ‖coords n v0‖ with hN
  have hN0 : 0 ≤ N := norm_nonneg _
  have hQ0 : 0 ≤ Q := hq.trans hQ
  have hnV : ‖S.nextV v0‖ = S.gamma0 * N := by rw [nextV_eq hv0, norm_smul, Real.norm_of_nonneg hg.le]
  rw [hnV]
  have hW0 : 0 ≤ ‖W‖ := norm_nonneg _
  refine (pi_norm_le_iff_of_nonneg (by positivity)).mpr fun i => ?_
  have hin := i.2
  by_cases hi : S.magN i
  · have e0 : (S.nextV v0 - S.rhs (0, c)) i = S.gamma0 • co (v0 i - S.vel (0, c) i) := by
      change co (if S.magN i then _ else _) - co (if S.magN i then _ else _) = _
      rw [if_pos hi, if_pos hi, co_smul, co_smul, co_sub, smul_sub]
    rw [e0, norm_smul, Real.norm_of_nonneg hg.le]
    set e := v0 i - S.vel (0, c) i with he
    have hu1 := (hc i hin).1 hi
    have het : e.dot (vecs c i) = 0 := by
      rw [he, sub_dot3, h.1 i hi]
      unfold Setting.vel
      rw [nodeVel_tangent _ _ _ _ hu1, sub_zero]
    have h1 := node_step h i e het
    have h2 := node_vel hS (z := (0, c)) hc i hi e het
    rw [pert_eq] at h1
    have h3 : S.dmp i * e.dot e = dt * (S.rateWork (0, c) W (single i e) - q * S.exch v0 (single i e))
        - (S.dmpEff (0, c) dt i - S.dmp i) * (v0 i).dot e := by
      have h4 : S.dmp i * e.dot e = S.dmp i * (v0 i).dot e + lumpG S.G S.tets S.p i * ((vecs c i).cross (v0 i)).dot e
          - (S.dmp i * (S.vel (0, c) i).dot e + lumpG S.G S.tets S.p i * ((vecs c i).cross (S.vel (0, c) i)).dot e) := by
        rw [he]
        simp only [V3.dot, V3.cross, V3.sub_x, V3.sub_y, V3.sub_z]
        ring
      rw [h4, h2]
      linear_combination h1
    have hsv' : vecs (coords n (single i e)) = single i e := vecs_coords' _ fun k hk => by
      unfold single
      rw [if_neg]
      rintro rfl
      exact hk hin
    have h4 := hb.rate c hcn W (coords n (single i e))
    have h5 := hb.exch (coords n v0) (coords n (single i e))
    rw [hsv'] at h4 h5
    rw [hvv] at h5
    have hr := norm_coords_single (n := n) i e
    set r := ‖co e‖ with hrd
    have hr0 : 0 ≤ r := norm_nonneg _
    have h6 : S.rateWork (0, c) W (single i e) ≤ B2 * ‖W‖ * r :=
      ((le_abs_self _).trans h4).trans (mul_le_mul_of_nonneg_left hr (by positivity))
    have h7 : |S.exch v0 (single i e)| ≤ B3 * N * r := h5.trans (mul_le_mul_of_nonneg_left hr (by positivity))
    have hvi : ‖co (v0 i)‖ ≤ N := norm_co_le_coords v0 i hin
    have h8 : |(S.dmpEff (0, c) dt i - S.dmp i) * (v0 i).dot e| ≤ dt * B4 * (3 * (N * r)) := by
      rw [abs_mul]
      refine mul_le_mul (hb.eff c hcn dt hdt i) ((abs_dot_le _ _).trans ?_) (abs_nonneg _) (by positivity)
      have : ‖co (v0 i)‖ * ‖co e‖ ≤ N * r := mul_le_mul_of_nonneg_right hvi hr0
      linarith
    have h9 : -(q * S.exch v0 (single i e)) ≤ Q * (B3 * N * r) := by
      refine (neg_le_abs _).trans ?_
      rw [abs_mul, abs_of_nonneg hq]
      exact mul_le_mul hQ h7 (abs_nonneg _) hQ0
    have h10 : d * r ^ 2 ≤ dt * (B2 * ‖W‖ * r + Q * (B3 * N * r)) + dt * B4 * (3 * (N * r)) := by
      have h11 : d * r ^ 2 ≤ S.dmp i * e.dot e :=
        mul_le_mul (hb.dmp i hi) (norm_co_sq e) (sq_nonneg _) (hd.le.trans (hb.dmp i hi))
      have h12 : dt * (S.rateWork (0, c) W (single i e) - q * S.exch v0 (single i e)) ≤ dt * (B2 * ‖W‖ * r + Q * (B3 * N * r)) :=
        mul_le_mul_of_nonneg_left (by linarith) hdt.le
      have h13 := neg_le_abs ((S.dmpEff (0, c) dt i - S.dmp i) * (v0 i).dot e)
      linarith
    have h11 : d * r ≤ dt * (B2 * ‖W‖ + (Q * B3 + 3 * B4) * N) := by
      rcases hr0.eq_or_lt with h0 | h0
      · rw [← h0, mul_zero]
        positivity
      · refine le_of_mul_le_mul_right ?_ h0
        nlinarith
    have h12 : r ≤ dt * (B2 * ‖W‖ + (Q * B3 + 3 * B4) * N) / d := by
      rw [le_div_iff₀ hd]
      linarith
    calc S.gamma0 * r ≤ S.gamma0 * (dt * (B2 * ‖W‖ + (Q * B3 + 3 * B4) * N) / d) := mul_le_mul_of_nonneg_left h12 hg.le
      _ = dt / d * (S.gamma0 * B2 * ‖W‖ + (Q * B3 + 3 * B4) * (S.gamma0 * N)) := by ring
      _ ≤ dt / d * ((S.gamma0 * B2 + (Q * B3 + 3 * B4)) * (‖W‖ + S.gamma0 * N)) := by
        refine mul_le_mul_of_nonneg_left ?_ (by positivity)
        have a1 : 0 ≤ S.gamma0 * B2 * (S.gamma0 * N) := by positivity
        have a2 : 0 ≤ (Q * B3 + 3 * B4) * ‖W‖ := by positivity
        nlinarith
      _ = _ := by ring
  · have e0 : (S.nextV v0 - S.rhs (0, c)) i = 0 := by
      change co (if S.magN i then _ else _) - co (if S.magN i then _ else _) = _
      rw [if_neg hi, if_neg hi, sub_self]
    rw [e0, norm_zero]
    positivity

/-- distance covered by a step -/
theorem next_dist (hS : S.Good) {c : X n} {dt : ℝ} {v : ℕ → V3} (hc : S.Admissible c) (hdt : 0 < dt)
    (ht : ∀ i, S.magN i → (v i).dot (vecs c i) = 0) :
    ‖S.next c dt v - c‖ ≤ 2 * (dt * ‖S.nextV v‖) ∧ ‖S.next c dt v - c - dt • S.nextV v‖ ≤ 3 / 2 * (dt * ‖S.nextV v‖) ^ 2 := by
  classical
  have hg := hS.gamma0
  have key : ∀ i : Fin n, S.magN i →
      ((dt * S.gamma0) * v i).dot ((dt * S.gamma0) * v i) ≤ 3 * (dt * ‖S.nextV v‖) ^ 2 := by
    intro i hi
    have h1 : ‖co (S.gamma0 * v i)‖ ≤ ‖S.nextV v‖ := by
      have := norm_le_pi_norm (S.nextV v) i
      have e : S.nextV v i = co (S.gamma0 * v i) := by
        change co (if S.magN i then _ else _) = _
        rw [if_pos hi]
      rwa [e] at this
    have h2 := (le_abs_self _).trans (abs_dot_le (S.gamma0 * v i) (S.gamma0 * v i))
    have e : ((dt * S.gamma0) * v i).dot ((dt * S.gamma0) * v i) = dt ^ 2 * (S.gamma0 * v i).dot (S.gamma0 * v i) := by
      simp only [smul_dot, dot_smul]
      ring
    rw [e]
    have h3 : ‖co (S.gamma0 * v i)‖ * ‖co (S.gamma0 * v i)‖ ≤ ‖S.nextV v‖ * ‖S.nextV v‖ :=
      mul_le_mul h1 h1 (norm_nonneg _) (norm_nonneg _)
    have h4 := mul_le_mul_of_nonneg_left (h2.trans (mul_le_mul_of_nonneg_left h3 (by norm_num : (0 : ℝ) ≤ 3))) (sq_nonneg dt)
    nlinarith
  constructor
  · refine (pi_norm_le_iff_of_nonneg (by positivity)).mpr fun i => ?_
    by_cases hi : S.magN i
    · have hxt : ((dt * S.gamma0) * v i).dot (vecs c i) = 0 := by rw [smul_dot, ht i hi, mul_zero]
      have h1 := normalize_dist (vecs c i) ((dt * S.gamma0) * v i) ((hc i i.2).1 hi) hxt
      have e : (S.next c dt v - c) i = co ((vecs c i + (dt * S.gamma0) * v i).normalize - vecs c i) := by
        change co (if S.magN i then _ else _) - c i = _
        rw [if_pos hi, co_sub, co_vecs]
      rw [e]
      have h2 := (norm_co_sq _).trans (h1.trans (key i hi))
      refine abs_le_of_sq_le_sq' ?_ (by positivity) |>.2
      nlinarith [sq_nonneg (dt * ‖S.nextV v‖)]
    · have e : (S.next c dt v - c) i = 0 := by
        change co (if S.magN i then _ else _) - c i = _
        rw [if_neg hi, ← co_vecs c i, (hc i i.2).2 hi, co_zero, sub_self]
      rw [e, norm_zero]
      positivity
  · refine (pi_norm_le_iff_of_nonneg (by positivity)).mpr fun i => ?_
    by_cases hi : S.magN i
    · have hxt : ((dt * S.gamma0) * v i).dot (vecs c i) = 0 := by rw [smul_dot, ht i hi, mul_zero]
      have h1 := normalize_close (vecs c i) ((dt * S.gamma0) * v i) ((hc i i.2).1 hi) hxt
      have e : (S.next c dt v - c - dt • S.nextV v) i =
          co ((vecs c i + (dt * S.gamma0) * v i).normalize - (vecs c i + (dt * S.gamma0) * v i)) := by
        change co (if S.magN i then _ else _) - c i - dt • co (if S.magN i then _ else _) = _
        rw [if_pos hi, if_pos hi, co_sub, co_add, co_smul, co_smul, co_vecs, smul_smul]
        abel
      rw [e]
      have := key i hi
      linarith
    · have e : (S.next c dt v - c - dt • S.nextV v) i = 0 := by
        change co (if S.magN i then _ else _) - c i - dt • co (if S.magN i then _ else _) = _
        rw [if_neg hi, if_neg hi, ← co_vecs c i, (hc i i.2).2 hi, co_zero]
        simp
      rw [e, norm_zero]
      positivity

theorem next_admissible {c : X n} {dt : ℝ} {v : ℕ → V3} (hc : S.Admissible c)
    (ht : ∀ i, S.magN i → (v i).dot (vecs c i) = 0) : S.Admissible (S.next c dt v) := by
  classical
  intro i hi
  have e : vecs (S.next c dt v) i = if S.magN i then (vecs c i + (dt * S.gamma0) * v i).normalize else 0 := by
    unfold next
    rw [vecs_coords _ _ hi]
  rw [e]
  refine ⟨fun hm => ?_, fun hm => if_neg hm⟩
  rw [if_pos hm]
  have hu : (vecs c i).x * (vecs c i).x + (vecs c i).y * (vecs c i).y + (vecs c i).z * (vecs c i).z = 1 := (hc i hi).1 hm
  have hx : (v i).x * (vecs c i).x + (v i).y * (vecs c i).y + (v i).z * (vecs c i).z = 0 := ht i hm
  set y := vecs c i + (dt * S.gamma0) * v i with hy
  have hn : 1 ≤ y.nsq := by
    have : y.nsq = 1 + (dt * S.gamma0) ^ 2 * (v i).dot (v i) := by
      rw [hy]
      simp only [V3.nsq, V3.dot, V3.add_x, V3.add_y, V3.add_z, V3.smul_x, V3.smul_y, V3.smul_z]
      linear_combination hu + 2 * (dt * S.gamma0) * hx
    rw [this, ← V3.nsq_eq_dot]
    have := mul_nonneg (sq_nonneg (dt * S.gamma0)) (nsq_nonneg (v i))
    linarith
  have hp : 0 < y.nsq := by linarith
  unfold V3.normalize
  rw [if_pos hp, smul_dot, dot_smul, ← V3.nsq_eq_dot]
  have hs : Real.sqrt y.nsq * Real.sqrt y.nsq = y.nsq := Real.mul_self_sqrt hp.le
  have h0 : Real.sqrt y.nsq ≠ 0 := (Real.sqrt_pos.mpr hp).ne'
  field_simp
  nlinarith

/-- the work in the displacement given by the velocity -/
theorem Bd.self {d B1 B2 B3 B4 : ℝ} (hb : Bd S d B1 B2 B3 B4) (hS : S.Good) {c W : X n} {dt q : ℝ} {v : ℕ → V3} (hc : S.Admissible c)
    (hdt : 0 < dt) (hd4 : dt * B4 ≤ d / 2) (hq : 0 ≤ q) (h : S.StepEq (0, c) W dt q v) (hv0 : ∀ k, ¬ S.magN k → v k = 0) :
    d / 2 * ‖coords n v‖ ^ 2 ≤ S.work (0, c) v + dt * (B2 * ‖W‖ * ‖coords n v‖) := by
  have hcn : ‖c‖ ≤ 1 := norm_le_one hc
  have hd := hb.hd
  have hvn : ∀ k, ¬ k < n → v k = 0 := fun k hk => hv0 k fun hm => hk (hS.magTet k hm).1
  have hvv : vecs (coords n v) = v := vecs_coords' v hvn
  set R := S.work (0, c) v + dt * (B2 * ‖W‖ * ‖coords n v‖) with hR
  have h2 := hb.rate c hcn W (coords n v)
  rw [hvv] at h2
  have h3 : dt * S.rateWork (0, c) W v ≤ dt * (B2 * ‖W‖ * ‖coords n v‖) := mul_le_mul_of_nonneg_left ((le_abs_self _).trans h2) hdt.le
  have hR0 : 0 ≤ R := by
    have h4 := h.2 v h.1
    rw [List.sum_map_add, pert_eq] at h4
    have h5 : (S.tets.map fun t => gyration S.G (fun k => S.p (t.ind k)) (fun k => vecs c (t.ind k)) (fun k => v (t.ind k))
        (fun k => v (t.ind k))).sum = 0 := List.sum_eq_zero fun x hx => by
      obtain ⟨t, _, rfl⟩ := List.mem_map.mp hx
      exact gyration_self _ _ _
    have h6 := mul_nonneg (mul_nonneg hdt.le hq) (exch_self_nonneg hS v)
    have h7 : 0 ≤ (S.tets.map fun t => damping S.G (fun k => S.p (t.ind k))
        (fun j => alphaEff S.gamma0 dt (S.prm t.reg).alpha (S.par (0, c) t j)) (fun k => v (t.ind k)) (fun k => v (t.ind k))).sum := by
      refine List.sum_nonneg fun x hx => ?_
      obtain ⟨t, ht, rfl⟩ := List.mem_map.mp hx
      rw [damping_eq]
      refine Finset.sum_nonneg fun k _ => mul_nonneg (contrib_pos hS.compiled _ (hS.vol t ht) _ _ (hS.alpha t ht) (fun j =>
        C38_bounds S.gamma0 dt _ _ hS.gamma0 hdt (hS.alpha t ht)) k).le ?_
      rw [← V3.nsq_eq_dot]
      exact nsq_nonneg _
    dsimp only at h4
    nlinarith
  have h4 : ‖coords n v‖ ≤ Real.sqrt (R / (d / 2)) := by
    refine norm_coords_le (Real.sqrt_nonneg _) fun k hk => Real.le_sqrt_of_sq_le ?_
    rw [le_div_iff₀ (by positivity)]
    by_cases hm : S.magN k
    · have h5 := energy_bound hS hdt hq h k
      have h6 : d / 2 ≤ S.dmpEff (0, c) dt k := by
        have h1 := (abs_le.mp (hb.eff c hcn dt hdt k)).1
        have := hb.dmp k hm
        linarith
      have h7 : d / 2 * ‖co (v k)‖ ^ 2 ≤ S.dmpEff (0, c) dt k * (v k).dot (v k) :=
        mul_le_mul h6 (norm_co_sq (v k)) (sq_nonneg _) ((by positivity : (0 : ℝ) ≤ d / 2).trans h6)
      linarith
    · rw [hv0 k hm, co_zero, norm_zero]
      simpa using hR0
  have h5 : ‖coords n v‖ ^ 2 ≤ R / (d / 2) := by
    calc ‖coords n v‖ ^ 2 ≤ Real.sqrt (R / (d / 2)) ^ 2 := by gcongr
      _ = R / (d / 2) := Real.sq_sqrt (by positivity)
  rw [le_div_iff₀ (by positivity)] at h5
  linarith

/-- arithmetic of the estimate below -/
theorem descent_arith {rh rh' V W dt C L : ℝ} (hrh : 0 ≤ rh) (hV : 0 ≤ V)
    (hC : dt * C ≤ 1 / 8) (hL : L * dt ≤ 1 / 20) (hW : W ≤ 2 * rh) (hW0 : 0 ≤ W)
    (h1 : |V - rh| ≤ dt * C * (W + V)) (h2 : |rh - rh'| ≤ L * (2 * (dt * V))) :
    rh' ≤ 2 * V ∧ V ≤ 2 * rh' ∧ W ≤ 4 * V := by
  have a1 := (abs_le.mp h1).1
  have a2 := (abs_le.mp h1).2
  have a5 := (abs_le.mp h2).1
  have a6 := (abs_le.mp h2).2
  have a3 : dt * C * (W + V) ≤ 1 / 8 * (2 * rh + V) := by
    have : dt * C * (W + V) ≤ 1 / 8 * (W + V) := mul_le_mul_of_nonneg_right hC (by linarith)
    linarith
  have a4 : L * (2 * (dt * V)) ≤ 1 / 10 * V := by nlinarith
  refine ⟨by linarith, by linarith, by linarith⟩

/-- **a step lowers the energy**, if it is short: the limit does not depend on the state. So does each part `τ` of the step. -/
theorem descent (hS : S.Good) (h : Grad S E) {Q : ℝ} (hQ : 0 ≤ Q) :
    ∃ δ κ, 0 < δ ∧ 0 < κ ∧ ∀ (t : ℝ) (c W : X n) (dt q : ℝ) (v : ℕ → V3), S.Admissible c → ‖W‖ ≤ 2 * ‖S.rhs (0, c)‖ → 0 < dt → dt ≤ δ →
      0 ≤ q → q ≤ Q → S.StepEq (t, c) W dt q v →
        (∀ τ, 0 < τ → τ ≤ dt → E (S.next c τ v) ≤ E c - κ * τ * ‖S.nextV v‖ ^ 2) ∧ ‖S.nextV v‖ ≤ 2 * ‖S.rhs (0, S.next c dt v)‖ ∧
        ‖S.rhs (0, S.next c dt v)‖ ≤ 2 * ‖S.nextV v‖ := by
  obtain ⟨d, B1, B2, B3, B4, hb⟩ := exists_bd hS h
  obtain ⟨B, hT⟩ := h.taylor
  have hg := hS.gamma0
  have hd := hb.hd
  have hB1 := hb.h1
  have hB2 := hb.h2
  have hB3 := hb.h3
  have hB4 := hb.h4
  have hK : IsCompact (({0} : Set ℝ) ×ˢ Metric.closedBall (0 : X n) 1) := isCompact_singleton.prod (isCompact_closedBall _ _)
  obtain ⟨L, hL, hlip⟩ := OneStep.lipschitz_of_contDiff (Setting.smooth_rhs hS) hK ((convex_singleton (0 : ℝ)).prod (convex_closedBall _ _))
  set C := (S.gamma0 * B2 + (Q * B3 + 3 * B4)) / d with hCd
  have hC : 0 < C := by positivity
  set F := 4 * B2 + 3 / 2 * B1 + 4 * |B| with hF
  have hF0 : 0 < F := by positivity
  set κ := d / (4 * S.gamma0) with hκ
  have hκ0 : 0 < κ := by positivity
  refine ⟨min (min (1 / (8 * C)) (1 / (20 * L))) (min (d / 2 / B4) (κ / F)), κ, by positivity, hκ0, ?_⟩
  intro t c W dt q v hc hW hdt hδ hq hqQ hst
  replace hst := h.stepEq hst
  have hδ1 : dt * C ≤ 1 / 8 := by
    have := hδ.trans ((min_le_left _ _).trans (min_le_left _ _))
    rw [le_div_iff₀ (by positivity)] at this
    linarith
  have hδ2 : L * dt ≤ 1 / 20 := by
    have := hδ.trans ((min_le_left _ _).trans (min_le_right _ _))
    rw [le_div_iff₀ (by positivity)] at this
    linarith
  have hδ3 : dt * B4 ≤ d / 2 := by
    have := hδ.trans ((min_le_right _ _).trans (min_le_left _ _))
    rwa [le_div_iff₀ hB4] at this
  have hδ4 : dt * F ≤ κ := by
    have := hδ.trans ((min_le_right _ _).trans (min_le_right _ _))
    rwa [le_div_iff₀ hF0] at this
  obtain ⟨v0, hvm, hv0⟩ := mask S v
  have hst0 := stepEq_mask hS hst hvm
  simp only [← nextV_mask hvm, ← next_mask hvm]
  have hnV : S.nextV v0 = S.gamma0 • coords n v0 := nextV_eq hv0
  set V := ‖S.nextV v0‖ with hVd
  have hV0 : 0 ≤ V := norm_nonneg _
  have hN : ‖coords n v0‖ = V / S.gamma0 := by
    rw [hVd, hnV, norm_smul, Real.norm_of_nonneg hg.le]
    field_simp
  have hvel := hb.vel hS hc hdt hq hqQ hst0
  obtain ⟨hdist, hclose⟩ := next_dist hS hc hdt hst0.1
  have hcn : ‖c‖ ≤ 1 := norm_le_one hc
  have hnn : ‖S.next c dt v0‖ ≤ 1 := norm_le_one (next_admissible hc hst0.1)
  have hl := hlip (0, c) ⟨rfl, mem_closedBall_zero_iff.mpr hcn⟩ (0, S.next c dt v0) ⟨rfl, mem_closedBall_zero_iff.mpr hnn⟩
  have hpr : ‖((0, S.next c dt v0) : ℝ × X n) - (0, c)‖ = ‖S.next c dt v0 - c‖ := by
    rw [Prod.mk_sub_mk, sub_self, Prod.norm_mk, norm_zero]
    exact max_eq_right (norm_nonneg _)
  rw [hpr] at hl
  have hrr : |‖S.rhs (0, c)‖ - ‖S.rhs (0, S.next c dt v0)‖| ≤ L * (2 * (dt * V)) := by
    have h1 := abs_norm_sub_norm_le (S.rhs (0, c)) (S.rhs (0, S.next c dt v0))
    rw [norm_sub_rev] at h1
    exact (h1.trans hl).trans (mul_le_mul_of_nonneg_left hdist hL.le)
  have hab : |V - ‖S.rhs (0, c)‖| ≤ dt * C * (‖W‖ + V) := (abs_norm_sub_norm_le _ _).trans hvel
  obtain ⟨c1, c2, c3⟩ := descent_arith (norm_nonneg _) hV0 hδ1 hδ2 hW (norm_nonneg _) hab hrr
  refine ⟨fun τ hτ hτd => ?_, c2, c1⟩
  have hself := hb.self hS hc hdt hδ3 hq hst0 hv0
  rw [hN] at hself
  have hvn : ∀ k, ¬ k < n → v0 k = 0 := fun k hk => hv0 k fun hm => hk (hS.magTet k hm).1
  have hvv : vecs (coords n v0) = v0 := vecs_coords' v0 hvn
  obtain ⟨tdist, tclose⟩ := next_dist hS hc hτ hst0.1
  have tnn : ‖S.next c τ v0‖ ≤ 1 := norm_le_one (next_admissible hc hst0.1)
  have hty := (le_abs_self _).trans (hT c (S.next c τ v0) hcn tnn)
  set r := S.next c τ v0 - c - τ • S.nextV v0 with hr
  have hdec : vecs (S.next c τ v0 - c) = fun k => (τ * S.gamma0) * v0 k + (1 : ℝ) * vecs r k := by
    have e : S.next c τ v0 - c = (τ * S.gamma0) • coords n v0 + r := by
      rw [hr, hnV, smul_smul]
      abel
    funext k
    rw [e]
    have e2 : vecs ((τ * S.gamma0) • coords n v0 + r) k = vecs ((τ * S.gamma0) • coords n v0) k + vecs r k := by
      unfold vecs
      split_ifs
      · ext <;> simp
      · ext <;> simp
    rw [e2, vecs_smul, hvv]
    ext <;> simp
  rw [hdec, work_lin, one_mul] at hty
  have hwr := (abs_le.mp (hb.work c hcn r)).1
  have hwr2 : B1 * ‖r‖ ≤ B1 * (3 / 2 * (τ * V) ^ 2) := mul_le_mul_of_nonneg_left tclose hB1.le
  have hq2 : B * ‖S.next c τ v0 - c‖ ^ 2 ≤ |B| * (4 * (τ * V) ^ 2) := by
    have : ‖S.next c τ v0 - c‖ ^ 2 ≤ (2 * (τ * V)) ^ 2 := by gcongr
    calc B * ‖S.next c τ v0 - c‖ ^ 2 ≤ |B| * ‖S.next c τ v0 - c‖ ^ 2 := mul_le_mul_of_nonneg_right (le_abs_self _) (sq_nonneg _)
      _ ≤ |B| * (2 * (τ * V)) ^ 2 := mul_le_mul_of_nonneg_left this (abs_nonneg _)
      _ = _ := by ring
  have hw1 : (τ * S.gamma0) * (d / 2 * (V / S.gamma0) ^ 2) ≤
      (τ * S.gamma0) * (S.work (0, c) v0 + dt * (B2 * (4 * V) * (V / S.gamma0))) := by
    refine mul_le_mul_of_nonneg_left (hself.trans ?_) (by positivity)
    have : B2 * ‖W‖ * (V / S.gamma0) ≤ B2 * (4 * V) * (V / S.gamma0) :=
      mul_le_mul_of_nonneg_right (mul_le_mul_of_nonneg_left c3 hB2.le) (by positivity)
    have := mul_le_mul_of_nonneg_left this hdt.le
    linarith
  have e1 : (τ * S.gamma0) * (d / 2 * (V / S.gamma0) ^ 2) = 2 * κ * τ * V ^ 2 := by
    rw [hκ]; field_simp; ring
  have e2 : (τ * S.gamma0) * (S.work (0, c) v0 + dt * (B2 * (4 * V) * (V / S.gamma0))) =
      (τ * S.gamma0) * S.work (0, c) v0 + τ * dt * V ^ 2 * (4 * B2) := by
    field_simp
  rw [e1, e2] at hw1
  have hfin : dt * F * (τ * V ^ 2) ≤ κ * (τ * V ^ 2) := mul_le_mul_of_nonneg_right hδ4 (by positivity)
  have e3 : dt * F * (τ * V ^ 2) = τ * dt * V ^ 2 * (4 * B2) + (3 / 2 * B1 + 4 * |B|) * (τ * dt * V ^ 2) := by
    rw [hF]; ring
  have e4 : (3 / 2 * B1 + 4 * |B|) * (τ * V) ^ 2 ≤ (3 / 2 * B1 + 4 * |B|) * (τ * dt * V ^ 2) := by
    refine mul_le_mul_of_nonneg_left ?_ (by positivity)
    rw [mul_pow, sq τ]
    gcongr
  linarith

end Setting

end Verif.SemiDiscrete
