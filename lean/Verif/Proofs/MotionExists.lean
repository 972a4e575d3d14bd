import Verif.Proofs.GlobalOde
import Verif.Proofs.StepBound

/-!
# Existence of the velocity, and of the motion
-/

namespace Verif.SemiDiscrete

open Verif.Mesh Verif.Tetra Verif.WeakForm Verif.Llg

/-- a linear function of the displacement of finitely many nodes which vanishes for each node alone -/
theorem vanish_of_single {n : ℕ} {magN : ℕ → Prop} {u : ℕ → V3} (hm : ∀ i, magN i → i < n) (L : (ℕ → V3) → ℝ)
    (hL : ∀ g h a b, L (fun k => a * g k + b * h k) = a * L g + b * L h)
    (hc : ∀ g h, (∀ i, magN i → g i = h i) → L g = L h)
    (h1 : ∀ i e, magN i → e.dot (u i) = 0 → L (single i e) = 0) (w : ℕ → V3) (hw : ∀ i, magN i → (w i).dot (u i) = 0) : L w = 0 := by
  classical
  have key : ∀ m, L (fun k => if k < m ∧ magN k then w k else 0) = 0 := by
    intro m
    induction m with
    | zero =>
      have := hL (fun _ => 0) (fun _ => 0) 0 0
      have e : (fun k => (0 : ℝ) * (0 : V3) + (0 : ℝ) * (0 : V3)) = fun k : ℕ => if k < 0 ∧ magN k then w k else 0 := by
        funext k
        rw [if_neg (by simp)]
        ext <;> simp
      rw [e] at this
      rw [this]
      ring
    | succ m ih =>
      have h2 : L (single m (if magN m then w m else 0)) = 0 := by
        by_cases hmm : magN m
        · rw [if_pos hmm]
          exact h1 m _ hmm (hw m hmm)
        · rw [if_neg hmm]
          have e0 : single m 0 = fun k => (0 : ℝ) * (single m 0 k) + (0 : ℝ) * (single m 0 k) := by
            funext k
            ext <;> simp [single]
          rw [e0, hL]
          ring
      have e : (fun k => if k < m + 1 ∧ magN k then w k else 0) =
          fun k => (1 : ℝ) * (if k < m ∧ magN k then w k else 0) + (1 : ℝ) * single m (if magN m then w m else 0) k := by
        funext k
        by_cases hk : k = m
        · subst hk
          by_cases hmm : magN k <;> ext <;> simp [single, hmm]
        · have : (k < m + 1 ∧ magN k) ↔ (k < m ∧ magN k) := by
            constructor <;> rintro ⟨h3, h4⟩ <;> exact ⟨by omega, h4⟩
          by_cases hmm : k < m ∧ magN k
          · rw [if_pos (this.mpr hmm), if_pos hmm]
            ext <;> simp [single, hk]
          · rw [if_neg (fun h => hmm (this.mp h)), if_neg hmm]
            ext <;> simp [single, hk]
      rw [e, hL, ih, h2]
      ring
  rw [← key n]
  exact hc _ _ fun i hi => by rw [if_pos ⟨hm i hi, hi⟩]

theorem damping_lin {G : Rule} (p : Fin 4 → V3) (a' : Fin G.n → ℝ) (v g h : Fin 4 → V3) (a b : ℝ) :
    damping G p a' v (fun k => a * g k + b * h k) = a * damping G p a' v g + b * damping G p a' v h := by
  simp only [damping_eq, dot_add, dot_smul, Finset.mul_sum]
  rw [← Finset.sum_add_distrib]
  exact Finset.sum_congr rfl fun _ _ => by ring

theorem gyration_lin {G : Rule} (p u v g h : Fin 4 → V3) (a b : ℝ) :
    gyration G p u v (fun k => a * g k + b * h k) = a * gyration G p u v g + b * gyration G p u v h := by
  simp only [gyration_eq, dot_add, dot_smul, Finset.mul_sum]
  rw [← Finset.sum_add_distrib]
  exact Finset.sum_congr rfl fun _ _ => by ring

namespace Setting

variable {n : ℕ} {S : Setting n}

/-- the velocity exists -/
theorem velocity_exists (hS : S.Good) (htri : ∀ f ∈ S.tris, ∀ k, S.magN (f.1.ind k)) {z : ℝ × X n} (hz : S.Admissible z.2) :
    Velocity S.G S.H S.prm S.sprm S.mu0 S.magN S.tets S.tris S.p (vecs z.2) (S.phi z.2) (S.Hext z) (S.Hst z) (S.vel z) := by
  have hu : ∀ i, S.magN i → (vecs z.2 i).dot (vecs z.2 i) = 1 := fun i hi => (hz i (hS.magTet i hi).1).1 hi
  refine ⟨fun i hi => nodeVel_tangent _ _ _ _ (hu i hi), fun w hw => ?_⟩
  set Lf : (ℕ → V3) → ℝ := fun w => (S.tets.map fun t =>
        damping S.G (fun k => S.p (t.ind k)) (fun _ => (S.prm t.reg).alpha) (fun k => S.vel z (t.ind k)) (fun k => w (t.ind k))
        + gyration S.G (fun k => S.p (t.ind k)) (fun k => vecs z.2 (t.ind k)) (fun k => S.vel z (t.ind k)) (fun k => w (t.ind k))).sum
      with hLf
  rw [← sub_eq_zero]
  refine vanish_of_single (fun i hi => (hS.magTet i hi).1) (fun w => Lf w - S.work z w) (fun g h a b => ?_) (fun g h hgh => ?_)
    (fun i e hi he => ?_) w hw
  · have h1 : Lf (fun k => a * g k + b * h k) = a * Lf g + b * Lf h := by
      rw [hLf]
      exact list_lin S.tets _ _ _ a b fun t _ => by
        rw [damping_lin, gyration_lin]
        ring
    have h2 : S.work z (fun k => a * g k + b * h k) = a * S.work z g + b * S.work z h := totalWork_lin g h a b
    rw [h1, h2]
    ring
  · have e : ∀ t ∈ S.tets, (fun k => g (t.ind k)) = fun k => h (t.ind k) := fun t ht => funext fun k => hgh _ (hS.tetMag t ht k)
    have e' : ∀ f ∈ S.tris, (fun k => g (f.1.ind k)) = fun k => h (f.1.ind k) := fun f hf => funext fun k => hgh _ (htri f hf k)
    congr 1
    · rw [hLf]
      exact congrArg List.sum (List.map_congr_left fun t ht => by rw [e t ht])
    · unfold work totalWork
      exact congrArg₂ _ (congrArg List.sum (List.map_congr_left fun t ht => by rw [e t ht]))
        (congrArg List.sum (List.map_congr_left fun f hf => by rw [e' f hf]))
  · have h1 : Lf (single i e) = S.dmp i * (S.vel z i).dot e + lumpG S.G S.tets S.p i * ((vecs z.2 i).cross (S.vel z i)).dot e := by
      rw [hLf]
      dsimp only
      rw [List.sum_map_add]
      exact congrArg₂ _ (damping_single S.tets S.p (S.vel z) (fun t _ => (S.prm t.reg).alpha) i e)
        (gyration_single S.tets S.p (vecs z.2) (S.vel z) i e)
    have h2 : S.work z (single i e) = (nodeForce (S.work z) i).dot e := nodeForce_dot _ (fun g h a b => totalWork_lin g h a b) i e
    have h3 := nodeVel_eq (S.dmp i) (lumpG S.G S.tets S.p i) (dmp_pos hS i hi).ne' (vecs z.2 i) (nodeForce (S.work z) i) (hu i hi) e he
    rw [h1, h2, sub_eq_zero]
    exact h3

theorem nodeVel_dot (d m : ℝ) (u f : V3) : (nodeVel d m u f).dot u = d / (d * d + m * m) * u.dot f * (1 - u.dot u) := by
  unfold nodeVel
  have : (u.cross f).dot u = 0 := by simp only [V3.dot, V3.cross]; ring
  rw [smul_dot, sub_dot3, smul_dot, sub_dot3, smul_dot, smul_dot, this, V3.dot_comm f u]
  ring

/-- solutions keep the length of the magnetization -/
theorem keeps_admissible (hS : S.Good) (a b : ℝ) (x : ℝ → X n)
    (hx : ∀ t ∈ Set.Icc a b, HasDerivWithinAt x (S.rhs (t, x t)) (Set.Icc a b) t) (h0 : S.Admissible (x a)) :
    ∀ t ∈ Set.Icc a b, S.Admissible (x t) := by
  classical
  have hcont : ContinuousOn x (Set.Icc a b) := fun t ht => (hx t ht).continuousWithinAt
  have hright : ∀ {z : ℝ → ℝ} {z' : ℝ → ℝ}, (∀ t ∈ Set.Icc a b, HasDerivWithinAt z (z' t) (Set.Icc a b) t) →
      ∀ t ∈ Set.Ico a b, HasDerivWithinAt z (z' t) (Set.Ici t) t := fun hz t ht =>
    ((hz t (Set.Ico_subset_Icc_self ht)).mono (Set.Icc_subset_Icc_left ht.1)).mono_of_mem_nhdsWithin (Icc_mem_nhdsGE ht.2)
  intro t ht i hi
  have hcomp : ∀ k : Fin 3, ∀ s ∈ Set.Icc a b, HasDerivWithinAt (fun s => x s ⟨i, hi⟩ k) (S.rhs (s, x s) ⟨i, hi⟩ k) (Set.Icc a b) s :=
    fun k s hs => hasDerivWithinAt_pi.mp (hasDerivWithinAt_pi.mp (hx s hs) ⟨i, hi⟩) k
  have hr : ∀ s, S.rhs (s, x s) ⟨i, hi⟩ = co (if S.magN i then S.gamma0 * S.vel (s, x s) i else 0) := fun _ => rfl
  have hv : ∀ s, vecs (x s) i = ⟨x s ⟨i, hi⟩ 0, x s ⟨i, hi⟩ 1, x s ⟨i, hi⟩ 2⟩ := fun s => by simp [vecs, hi]
  refine ⟨fun hm => ?_, fun hm => ?_⟩
  · -- length
    set c : ℝ → ℝ := fun s => -(2 * S.gamma0 * (S.dmp i / (S.dmp i * S.dmp i + lumpG S.G S.tets S.p i * lumpG S.G S.tets S.p i))
      * (vecs (x s) i).dot (nodeForce (S.work (s, x s)) i)) with hc
    have hder : ∀ s ∈ Set.Icc a b, HasDerivWithinAt (fun s => (vecs (x s) i).dot (vecs (x s) i) - 1)
        (c s * ((vecs (x s) i).dot (vecs (x s) i) - 1)) (Set.Icc a b) s := by
      intro s hs
      have d0 := hcomp 0 s hs
      have d1 := hcomp 1 s hs
      have d2 := hcomp 2 s hs
      rw [hr, if_pos hm] at d0 d1 d2
      have h1 := (((d0.mul d0).add (d1.mul d1)).add (d2.mul d2)).sub_const 1
      have e : (fun s => (vecs (x s) i).dot (vecs (x s) i) - 1) =
          fun s => x s ⟨i, hi⟩ 0 * x s ⟨i, hi⟩ 0 + x s ⟨i, hi⟩ 1 * x s ⟨i, hi⟩ 1 + x s ⟨i, hi⟩ 2 * x s ⟨i, hi⟩ 2 - 1 := by
        funext s
        rw [hv]
        rfl
      rw [e]
      refine h1.congr_deriv ?_
      have h2 := nodeVel_dot (S.dmp i) (lumpG S.G S.tets S.p i) (vecs (x s) i) (nodeForce (S.work (s, x s)) i)
      have h3 : (nodeVel (S.dmp i) (lumpG S.G S.tets S.p i) (vecs (x s) i) (nodeForce (S.work (s, x s)) i)) = S.vel (s, x s) i := rfl
      rw [h3] at h2
      have h4 : (S.vel (s, x s) i).dot (vecs (x s) i) = (S.vel (s, x s) i).x * x s ⟨i, hi⟩ 0 + (S.vel (s, x s) i).y * x s ⟨i, hi⟩ 1
          + (S.vel (s, x s) i).z * x s ⟨i, hi⟩ 2 := by rw [hv]; rfl
      rw [h4] at h2
      have h5 : (S.gamma0 * S.vel (s, x s) i).x = S.gamma0 * (S.vel (s, x s) i).x := rfl
      have h6 : (S.gamma0 * S.vel (s, x s) i).y = S.gamma0 * (S.vel (s, x s) i).y := rfl
      have h7 : (S.gamma0 * S.vel (s, x s) i).z = S.gamma0 * (S.vel (s, x s) i).z := rfl
      simp only [co, Matrix.cons_val_zero, Matrix.cons_val_one, Matrix.cons_val, h5, h6, h7]
      rw [hc]
      linear_combination 2 * S.gamma0 * h2
    have hcc : ContinuousOn c (Set.Icc a b) := by
      have hp : ContinuousOn (fun s => ((s, x s) : ℝ × X n)) (Set.Icc a b) := continuousOn_id.prodMk hcont
      have h : ∀ e, ContDiff ℝ 1 fun z => S.work z (single i e) := fun e => smooth_work hS contDiff_id fun k => SmoothV.const _
      have hf : SmoothV fun z => nodeForce (S.work z) i := ⟨h _, h _, h _⟩
      have hd : ContDiff ℝ 1 fun z : ℝ × X n => (vecs z.2 i).dot (nodeForce (S.work z) i) := (smooth_vecs contDiff_snd i).dot hf
      exact (continuousOn_const.mul (hd.continuous.comp_continuousOn hp)).neg
    obtain ⟨K, hK⟩ := isCompact_Icc.exists_bound_of_continuousOn hcc
    have := eq_zero_of_abs_deriv_le_mul_abs_self_of_eq_zero_right (K := K) (f := fun s => (vecs (x s) i).dot (vecs (x s) i) - 1)
      (fun s hs => (hder s hs).continuousWithinAt) (hright hder) (by
        change (vecs (x a) i).dot (vecs (x a) i) - 1 = 0
        rw [(h0 i hi).1 hm, sub_self]) (fun s hs => by
        rw [norm_mul]
        exact mul_le_mul_of_nonneg_right (hK s (Set.Ico_subset_Icc_self hs)) (norm_nonneg _)) t ht
    linarith
  · have hz : ∀ k : Fin 3, x t ⟨i, hi⟩ k = 0 := by
      intro k
      have hd : ∀ s ∈ Set.Icc a b, HasDerivWithinAt (fun s => x s ⟨i, hi⟩ k) 0 (Set.Icc a b) s := by
        intro s hs
        have := hcomp k s hs
        rw [hr, if_neg hm, co_zero] at this
        exact this
      have h1 := (convex_Icc a b).norm_image_sub_le_of_norm_hasDerivWithin_le (C := 0) hd (by simp)
        (Set.left_mem_Icc.mpr (ht.1.trans ht.2)) ht
      rw [zero_mul] at h1
      have h2 := norm_le_zero_iff.mp h1
      have h3 := (h0 i hi).2 hm
      rw [hv a] at h3
      have h4 : x a ⟨i, hi⟩ k = 0 := by
        have hx := congrArg V3.x h3
        have hy := congrArg V3.y h3
        have hz := congrArg V3.z h3
        fin_cases k
        · exact hx
        · exact hy
        · exact hz
      rw [h4, sub_zero] at h2
      exact h2
    rw [hv t, hz 0, hz 1, hz 2]
    rfl

end Setting

end Verif.SemiDiscrete
