import Mathlib.Analysis.ODE.ExistUnique
import Verif.Proofs.OneStep

/-!
# Solutions of a differential equation on a whole interval, and their uniqueness
-/

namespace Verif.GlobalOde

open Set

/-- two curves one after the other -/
theorem glue {E : Type*} [NormedAddCommGroup E] [NormedSpace ℝ E] {F : ℝ × E → E} {a b c : ℝ} {x y : ℝ → E} (hab : a ≤ b) (hbc : b ≤ c)
    (hx : ∀ t ∈ Icc a b, HasDerivWithinAt x (F (t, x t)) (Icc a b) t)
    (hy : ∀ t ∈ Icc b c, HasDerivWithinAt y (F (t, y t)) (Icc b c) t) (hxy : y b = x b) (t : ℝ) (_ht : t ∈ Icc a c) :
    HasDerivWithinAt (fun t => if t ≤ b then x t else y t) (F (t, if t ≤ b then x t else y t)) (Icc a c) t := by
  have e : Icc a c = Icc a b ∪ Icc b c := (Icc_union_Icc_eq_Icc hab hbc).symm
  have h1 : ∀ s ∈ Icc a b, (if s ≤ b then x s else y s) = x s := fun s hs => if_pos hs.2
  have h2 : ∀ s ∈ Icc b c, (if s ≤ b then x s else y s) = y s := by
    intro s hs
    split_ifs with h
    · rw [le_antisymm h hs.1, hxy]
    · rfl
  rw [e]
  refine HasDerivWithinAt.union ?_ ?_
  · by_cases h : t ∈ Icc a b
    · rw [h1 t h]
      exact (hx t h).congr h1 (h1 t h)
    · exact HasFDerivWithinAt.of_notMem_closure (by rwa [isClosed_Icc.closure_eq])
  · by_cases h : t ∈ Icc b c
    · rw [h2 t h]
      exact (hy t h).congr h2 (h2 t h)
    · exact HasFDerivWithinAt.of_notMem_closure (by rwa [isClosed_Icc.closure_eq])

/-- if solutions that start in a set of bounded states stay in it, there is a solution on the whole interval -/
theorem exists_solution {E : Type*} [NormedAddCommGroup E] [NormedSpace ℝ E] [ProperSpace E] {F : ℝ × E → E}
    (hF : ContDiff ℝ 1 F) {A : E → Prop} (hA : ∀ c, A c → ‖c‖ ≤ 1)
    (hinv : ∀ a b (x : ℝ → E), (∀ t ∈ Icc a b, HasDerivWithinAt x (F (t, x t)) (Icc a b) t) → A (x a) → ∀ t ∈ Icc a b, A (x t))
    {t0 T : ℝ} (h : t0 ≤ T) (c : E) (hc : A c) :
    ∃ x : ℝ → E, x t0 = c ∧ ∀ t ∈ Icc t0 T, HasDerivWithinAt x (F (t, x t)) (Icc t0 T) t := by
  have hK : IsCompact (Icc t0 T ×ˢ Metric.closedBall (0 : E) 2) := isCompact_Icc.prod (isCompact_closedBall _ _)
  obtain ⟨L, hL, hlip⟩ := OneStep.lipschitz_of_contDiff hF hK ((convex_Icc t0 T).prod (convex_closedBall _ _))
  obtain ⟨M', hM'⟩ := hK.exists_bound_of_continuousOn hF.continuous.continuousOn
  set M := max M' 1 with hMd
  have hM1 : 1 ≤ M := le_max_right _ _
  have hM : ∀ z ∈ Icc t0 T ×ˢ Metric.closedBall (0 : E) 2, ‖F z‖ ≤ M := fun z hz => (hM' z hz).trans (le_max_left _ _)
  have key : ∀ N : ℕ, ∀ b, t0 ≤ b → b ≤ T → b ≤ t0 + N * (1 / M) →
      ∃ x : ℝ → E, x t0 = c ∧ ∀ t ∈ Icc t0 b, HasDerivWithinAt x (F (t, x t)) (Icc t0 b) t := by
    intro N
    induction N with
    | zero =>
      intro b h1 _ h3
      have hb : b = t0 := by push_cast at h3; linarith
      subst hb
      refine ⟨fun _ => c, rfl, fun t _ => ?_⟩
      rw [Icc_self]
      exact HasFDerivWithinAt.of_subsingleton subsingleton_singleton
    | succ N ih =>
      intro b h1 h2 h3
      have hM0 : 0 < 1 / M := by positivity
      by_cases hb : b ≤ t0 + N * (1 / M)
      · exact ih b h1 h2 hb
      · push Not at hb
        set m := t0 + N * (1 / M) with hm
        have hm0 : t0 ≤ m := by have : 0 ≤ (N : ℝ) * (1 / M) := by positivity
                                linarith
        obtain ⟨x, hx0, hx⟩ := ih m hm0 (hb.le.trans h2) le_rfl
        have hxm : A (x m) := hinv t0 m x hx (by rw [hx0]; exact hc) m ⟨hm0, le_rfl⟩
        have hball : ∀ s ∈ Icc m b, ∀ z ∈ Metric.closedBall (x m) 1, (s, z) ∈ Icc t0 T ×ˢ Metric.closedBall (0 : E) 2 := by
          intro s hs z hz
          refine ⟨⟨hm0.trans hs.1, hs.2.trans h2⟩, mem_closedBall_zero_iff.mpr ?_⟩
          have h4 := hA _ hxm
          have h5 : ‖z - x m‖ ≤ 1 := by rwa [Metric.mem_closedBall, dist_eq_norm] at hz
          calc ‖z‖ = ‖(z - x m) + x m‖ := by rw [sub_add_cancel]
            _ ≤ _ := norm_add_le _ _
            _ ≤ 2 := by linarith
        have hpl : IsPicardLindelof (fun s z => F (s, z)) (⟨m, le_rfl, hb.le⟩ : Icc m b) (x m) 1 0 ⟨M, by linarith⟩ ⟨L, hL.le⟩ := by
          refine ⟨fun s hs => ?_, fun z _ => ?_, fun s hs z hz => hM _ (hball s hs z hz), ?_⟩
          · refine LipschitzOnWith.of_dist_le_mul fun z hz z' hz' => ?_
            rw [dist_eq_norm, dist_eq_norm]
            have := hlip (s, z') (hball s hs z' hz') (s, z) (hball s hs z hz)
            refine this.trans (le_of_eq ?_)
            have e : (s, z) - (s, z') = ((0 : ℝ), z - z') := by rw [Prod.mk_sub_mk, sub_self]
            rw [e, Prod.norm_mk, norm_zero, max_eq_right (norm_nonneg _)]
            rfl
          · exact (hF.continuous.comp (by fun_prop : Continuous fun s : ℝ => (s, z))).continuousOn
          · change M * max (b - m) (m - m) ≤ (1 : ℝ) - 0
            rw [sub_self, max_eq_left (by linarith)]
            have : b - m ≤ 1 / M := by rw [hm]; push_cast at h3; linarith
            calc M * (b - m) ≤ M * (1 / M) := mul_le_mul_of_nonneg_left this (by linarith)
              _ = 1 - 0 := by field_simp; ring
        obtain ⟨z, hz0, hz⟩ := hpl.exists_eq_forall_mem_Icc_hasDerivWithinAt₀
        refine ⟨fun t => if t ≤ m then x t else z t, ?_, glue hm0 hb.le hx hz hz0⟩
        change (if t0 ≤ m then x t0 else z t0) = c
        rw [if_pos hm0, hx0]
  obtain ⟨N, hN⟩ := exists_nat_ge ((T - t0) * M)
  refine key N T h le_rfl ?_
  rw [mul_one_div, ← sub_le_iff_le_add', le_div_iff₀ (by linarith)]
  exact hN

/-- two solutions with the same start, in a bounded convex set, coincide -/
theorem unique_solution {E : Type*} [NormedAddCommGroup E] [NormedSpace ℝ E] {F : ℝ × E → E} {K : Set E} {L t0 T : ℝ} (hL : 0 ≤ L)
    (hlip : ∀ t ∈ Icc t0 T, ∀ u ∈ K, ∀ u' ∈ K, ‖F (t, u) - F (t, u')‖ ≤ L * ‖u - u'‖) {x y : ℝ → E}
    (hx : ∀ t ∈ Icc t0 T, HasDerivWithinAt x (F (t, x t)) (Icc t0 T) t) (hxK : ∀ t ∈ Icc t0 T, x t ∈ K)
    (hy : ∀ t ∈ Icc t0 T, HasDerivWithinAt y (F (t, y t)) (Icc t0 T) t) (hyK : ∀ t ∈ Icc t0 T, y t ∈ K) (h0 : x t0 = y t0) :
    ∀ t ∈ Icc t0 T, x t = y t := by
  have hright : ∀ {z : ℝ → E}, (∀ t ∈ Icc t0 T, HasDerivWithinAt z (F (t, z t)) (Icc t0 T) t) →
      ∀ t ∈ Ico t0 T, HasDerivWithinAt z (F (t, z t)) (Ici t) t := fun hz t ht =>
    ((hz t (Ico_subset_Icc_self ht)).mono (Icc_subset_Icc_left ht.1)).mono_of_mem_nhdsWithin (Icc_mem_nhdsGE ht.2)
  exact ODE_solution_unique_of_mem_Icc_right (v := fun t u => F (t, u)) (s := fun _ => K) (K := ⟨L, hL⟩)
    (fun t ht => LipschitzOnWith.of_dist_le_mul fun u hu u' hu' => by
      rw [dist_eq_norm, dist_eq_norm]
      exact hlip t (Ico_subset_Icc_self ht) u hu u' hu')
    (fun t ht => (hx t ht).continuousWithinAt) (hright hx) (fun t ht => hxK t (Ico_subset_Icc_self ht))
    (fun t ht => (hy t ht).continuousWithinAt) (hright hy) (fun t ht => hyK t (Ico_subset_Icc_self ht)) h0

end Verif.GlobalOde
