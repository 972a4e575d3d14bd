import Verif.Proofs.RelaxRun

/-!
# Descent in a set with one equilibrium
-/

namespace Verif.SemiDiscrete.Setting

open Verif.Mesh Verif.Assembly Verif.Tetra Verif.SparseMat Verif.Llg Verif.WeakForm Set

variable {n : ℕ} {S : Setting n} {E : X n → ℝ}

theorem vecs_add' (c c' : X n) (i : ℕ) : vecs (c + c') i = vecs c i + vecs c' i := by
  unfold vecs
  split_ifs
  · ext <;> simp
  · ext <;> simp

/-- the energy is continuous on the states with norm at most 1 -/
theorem grad_continuous (hS : S.Good) (hG : S.Grad E) : ContinuousOn E (Metric.closedBall 0 1) := by
  obtain ⟨B, hB⟩ := hG.taylor
  obtain ⟨d, B1, B2, B3, B4, hb⟩ := exists_bd hS hG
  have hlip : ∀ c c' : X n, ‖c‖ ≤ 1 → ‖c'‖ ≤ 1 → |E c' - E c| ≤ (B1 + 2 * |B|) * ‖c' - c‖ := by
    intro c c' hc hc'
    have h1 := abs_le.mp (hB c c' hc hc')
    have h2 := abs_le.mp (hb.work c hc (c' - c))
    have h3 : ‖c' - c‖ ≤ 2 := (norm_sub_le _ _).trans (by linarith)
    have h4 : B * ‖c' - c‖ ^ 2 ≤ 2 * |B| * ‖c' - c‖ := by
      have := mul_le_mul_of_nonneg_right (le_abs_self B) (sq_nonneg ‖c' - c‖)
      have h5 : |B| * ‖c' - c‖ ^ 2 ≤ |B| * (2 * ‖c' - c‖) := mul_le_mul_of_nonneg_left (by nlinarith [norm_nonneg (c' - c)]) (abs_nonneg B)
      linarith
    rw [abs_le]
    constructor <;> nlinarith
  refine LipschitzOnWith.continuousOn (K := Real.toNNReal (B1 + 2 * |B|)) (LipschitzOnWith.of_dist_le_mul fun c hc c' hc' => ?_)
  rw [Real.coe_toNNReal _ (by have := hb.h1; positivity), Real.dist_eq, dist_eq_norm]
  have := hlip c' c (mem_closedBall_zero_iff.mp hc') (mem_closedBall_zero_iff.mp hc)
  exact this

/-- at a local minimum of the energy no tangent displacement works -/
theorem min_work (hS : S.Good) (hG : S.Grad E) {c : X n} (hc : S.Admissible c) {r : ℝ} (hr : 0 < r)
    (hmin : ∀ c', S.Admissible c' → ‖c' - c‖ < r → E c ≤ E c') {v : ℕ → V3} (ht : ∀ i, S.magN i → (v i).dot (vecs c i) = 0) :
    S.work (0, c) (vecs (S.nextV v)) ≤ 0 := by
  by_contra hq
  rw [not_le] at hq
  obtain ⟨B, hB⟩ := hG.taylor
  obtain ⟨d, B1, B2, B3, B4, hb⟩ := exists_bd hS hG
  have hB1 := hb.h1
  set q := S.work (0, c) (vecs (S.nextV v)) with hqd
  set N := ‖S.nextV v‖ with hN
  have hN0 : 0 ≤ N := norm_nonneg _
  set M := 4 * |B| * N ^ 2 + 3 / 2 * B1 * N ^ 2 + 1 with hM
  have hMp : 0 < M := by positivity
  set τ := min (q / (2 * M)) (r / (2 * (2 * N + 1))) with hτd
  have hτ : 0 < τ := lt_min (by positivity) (by positivity)
  have hτ1 : τ * (2 * M) ≤ q := by
    have : τ ≤ q / (2 * M) := min_le_left _ _
    rwa [le_div_iff₀ (by positivity)] at this
  have hτ2 : τ * (2 * (2 * N + 1)) ≤ r := by
    have : τ ≤ r / (2 * (2 * N + 1)) := min_le_right _ _
    rwa [le_div_iff₀ (by positivity)] at this
  obtain ⟨h1, h2⟩ := next_dist hS hc hτ ht
  have hadm := next_admissible (dt := τ) hc ht
  have h3 := hmin _ hadm (lt_of_le_of_lt h1 (by nlinarith))
  have h4 := (abs_le.mp (hB c _ (norm_le_one hc) (norm_le_one hadm))).2
  set c' := S.next c τ v with hc'
  have e : vecs (c' - c) = fun k => τ * vecs (S.nextV v) k + (1 : ℝ) * vecs (c' - c - τ • S.nextV v) k := by
    funext k
    have : c' - c = τ • S.nextV v + (c' - c - τ • S.nextV v) := by abel
    conv_lhs => rw [this]
    rw [vecs_add', vecs_smul]
    congr 1
    ext <;> simp
  rw [e, work_lin, ← hqd] at h4
  have h5 := (abs_le.mp (hb.work c (norm_le_one hc) (c' - c - τ • S.nextV v))).1
  have h6 : B1 * ‖c' - c - τ • S.nextV v‖ ≤ B1 * (3 / 2 * (τ * N) ^ 2) := mul_le_mul_of_nonneg_left h2 hB1.le
  have h7 : B * ‖c' - c‖ ^ 2 ≤ |B| * (4 * (τ * N) ^ 2) := by
    have h8 : ‖c' - c‖ ^ 2 ≤ 4 * (τ * N) ^ 2 := by
      have := pow_le_pow_left₀ (norm_nonneg (c' - c)) h1 2
      nlinarith
    exact (mul_le_mul_of_nonneg_right (le_abs_self B) (sq_nonneg _)).trans (mul_le_mul_of_nonneg_left h8 (abs_nonneg B))
  have h9 : τ * q ≤ τ ^ 2 * (M - 1) := by
    rw [hM]
    nlinarith
  nlinarith [mul_pos hτ hτ, mul_pos hτ hMp]

/-- states which stay in a compact set with one equilibrium, and descend, are near this equilibrium after a time which depends only on
how near -/
theorem settle (hS : S.Good) (hG : S.Grad E) (htri : ∀ f ∈ S.tris, ∀ k, S.magN (f.1.ind k)) {N : Set (X n)} (hN : IsCompact N)
    (hadm : ∀ c ∈ N, S.Admissible c)
    (hin : ∀ c ∈ N, ∃ r, 0 < r ∧ ∀ c', S.Admissible c' → ‖c' - c‖ < r → E c' ≤ E c → c' ∈ N) {m : X n}
    (hone : ∀ c ∈ N, (∀ w : X n, (∀ i, S.magN i → (vecs w i).dot (vecs c i) = 0) → (∀ i : Fin n, ¬ S.magN i → w i = 0) →
      S.work (0, c) (vecs w) = 0) → c = m)
    {κ : ℝ} (hκ : 0 < κ) {ε : ℝ} (hε : 0 < ε) :
    ∃ T, ∀ (c : ℕ → X n) (t V : ℕ → ℝ), (∀ k, c k ∈ N) → (∀ k, E (c (k + 1)) ≤ E (c k)) →
      (∀ k, t (k + 1) = t k ∨ t k < t (k + 1) ∧ E (c (k + 1)) ≤ E (c k) - κ * (t (k + 1) - t k) * V k ^ 2 ∧
        ‖S.rhs (0, c (k + 1))‖ ≤ 2 * V k) →
      ∀ k, t 0 + T < t k → ‖c k - m‖ < ε := by
  classical
  have hg := hS.gamma0
  have hball : N ⊆ Metric.closedBall 0 1 := fun c hc => mem_closedBall_zero_iff.mpr (norm_le_one (hadm c hc))
  have hEc : ContinuousOn E N := (grad_continuous hS hG).mono hball
  obtain ⟨C, hC, hwork⟩ := Verif.Relax.work_small hS htri
  -- the least energy is attained at the equilibrium only
  have hleast : ∀ c ∈ N, (∀ c' ∈ N, E c ≤ E c') → c = m := by
    intro c hc hmin
    obtain ⟨r, hr, hnb⟩ := hin c hc
    have hmin' : ∀ c', S.Admissible c' → ‖c' - c‖ < r → E c ≤ E c' := by
      intro c' h1 h2
      rcases le_total (E c) (E c') with h3 | h3
      · exact h3
      · exact hmin c' (hnb c' h1 h2 h3)
    refine hone c hc fun w hw hw0 => ?_
    have hle : ∀ w : X n, (∀ i, S.magN i → (vecs w i).dot (vecs c i) = 0) → (∀ i : Fin n, ¬ S.magN i → w i = 0) →
        S.work (0, c) (vecs w) ≤ 0 := by
      intro w hw hw0
      have h1 := min_work hS hG (hadm c hc) hr hmin' (v := fun i => S.gamma0⁻¹ * vecs w i) (fun i hi => by
        rw [smul_dot, hw i hi, mul_zero])
      have e : S.nextV (fun i => S.gamma0⁻¹ * vecs w i) = w := by
        funext i
        change co (if S.magN i then _ else _) = _
        split_ifs with hi
        · rw [← co_vecs w i]
          congr 1
          ext <;> simp only [V3.smul_x, V3.smul_y, V3.smul_z] <;> field_simp
        · rw [hw0 i hi]
          exact co_zero
      rwa [e] at h1
    have h1 := hle w hw hw0
    have h2 := hle ((-1 : ℝ) • w) (fun i hi => by rw [vecs_smul, smul_dot, hw i hi, mul_zero]) (fun i hi => by
      rw [Pi.smul_apply, hw0 i hi, smul_zero])
    have e : vecs ((-1 : ℝ) • w) = fun k => (-1 : ℝ) * vecs w k := funext fun k => vecs_smul _ _ _
    rw [e, work_smul] at h2
    linarith
  by_cases hne : N.Nonempty
  swap
  · exact ⟨0, fun c t V h _ _ k _ => absurd ⟨_, h 0⟩ hne⟩
  obtain ⟨c0, hc0, hmin0⟩ := hN.exists_isMinOn hne hEc
  have hm0 : c0 = m := hleast c0 hc0 fun c' hc' => hmin0 hc'
  subst hm0
  -- the states away from the equilibrium
  set K1 := N ∩ {c | ε ≤ ‖c - c0‖} with hK1
  have hK1c : IsCompact K1 := hN.inter_right (isClosed_le continuous_const (by fun_prop))
  by_cases hne1 : K1.Nonempty
  swap
  · refine ⟨0, fun c t V h _ _ k _ => ?_⟩
    by_contra hcon
    exact hne1 ⟨c k, h k, not_lt.mp hcon⟩
  obtain ⟨c1, hc1, hmin1⟩ := hK1c.exists_isMinOn hne1 (hEc.mono inter_subset_left)
  have hgap : E c0 < E c1 := by
    by_contra hcon
    rw [not_lt] at hcon
    have := hleast c1 hc1.1 fun c' hc' => hcon.trans (hmin0 hc')
    have h2 := hc1.2
    simp only [mem_ofPred_eq, this, sub_self, norm_zero] at h2
    linarith
  set K2 := {c ∈ N | E c1 ≤ E c} with hK2
  have hK2c : IsCompact K2 := by
    have : K2 = N ∩ E ⁻¹' Ici (E c1) := rfl
    rw [this]
    exact hN.of_isClosed_subset (hEc.preimage_isClosed_of_isClosed hN.isClosed isClosed_Ici) inter_subset_left
  have hrc : Continuous fun c : X n => ‖S.rhs (0, c)‖ := ((smooth_rhs hS).continuous.comp (by fun_prop)).norm
  obtain ⟨c2, hc2, hmin2⟩ := hK2c.exists_isMinOn ⟨c1, hc1.1, le_rfl⟩ hrc.continuousOn
  set ν := ‖S.rhs (0, c2)‖ with hν
  have hνp : 0 < ν := by
    refine (norm_nonneg _).lt_of_ne fun h0 => ?_
    have h1 : c2 = c0 := hone c2 hc2.1 fun w hw _ => by
      have := hwork c2 (hadm c2 hc2.1) w hw
      rw [← h0, mul_zero, zero_mul] at this
      exact abs_nonpos_iff.mp this
    have h2 := hc2.2
    rw [h1] at h2
    linarith
  obtain ⟨c3, hc3, hmax3⟩ := hN.exists_isMaxOn hne hEc
  refine ⟨(E c3 - E c0) / (κ * (ν ^ 2 / 4)), fun c t V hcN hmono hst k hk => ?_⟩
  have hanti : Antitone fun k => E (c k) := antitone_nat_of_succ_le hmono
  have key : ∀ k, E c1 ≤ E (c k) → E (c k) + κ * (ν ^ 2 / 4) * (t k - t 0) ≤ E (c 0) := by
    intro k
    induction k with
    | zero => intro _; simp
    | succ k ih =>
      intro h1
      have h2 := ih (h1.trans (hmono k))
      rcases hst k with h3 | ⟨h3, h4, h5⟩
      · rw [h3]
        linarith [hmono k]
      · have h6 : ν ≤ ‖S.rhs (0, c (k + 1))‖ := hmin2 ⟨hcN (k + 1), h1⟩
        have h7 : ν ^ 2 / 4 ≤ V k ^ 2 := by nlinarith
        have h8 : κ * (t (k + 1) - t k) * (ν ^ 2 / 4) ≤ κ * (t (k + 1) - t k) * V k ^ 2 :=
          mul_le_mul_of_nonneg_left h7 (mul_nonneg hκ.le (by linarith))
        nlinarith
  by_contra hcon
  rw [not_lt] at hcon
  have h1 : E c1 ≤ E (c k) := hmin1 ⟨hcN k, hcon⟩
  have h2 := key k h1
  have h3 : E (c 0) ≤ E c3 := hmax3 (hcN 0)
  have h4 : E c0 ≤ E (c k) := hmin0 (hcN k)
  have h5 : (E c3 - E c0) / (κ * (ν ^ 2 / 4)) < t k - t 0 := by linarith
  rw [div_lt_iff₀ (by positivity)] at h5
  nlinarith

end Verif.SemiDiscrete.Setting
