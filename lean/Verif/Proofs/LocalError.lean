import Verif.Proofs.Scheme
import Mathlib.Analysis.Normed.Module.FiniteDimension

/-!
# Bounds for one time step
-/

namespace Verif.SemiDiscrete

open Verif.Mesh Verif.Tetra Verif.WeakForm Verif.Llg Set

/-- the state of `n` nodes as a vector of coordinates -/
abbrev X (n : ℕ) := Fin n → Fin 3 → ℝ

/-- a state as a function of the index of the node -/
def vecs {n : ℕ} (c : X n) (i : ℕ) : V3 := if h : i < n then ⟨c ⟨i, h⟩ 0, c ⟨i, h⟩ 1, c ⟨i, h⟩ 2⟩ else 0

/-- the coordinates of a vector -/
def co (a : V3) : Fin 3 → ℝ := ![a.x, a.y, a.z]

def coords (n : ℕ) (f : ℕ → V3) : X n := fun i => co (f i)

theorem vecs_coords {n : ℕ} (f : ℕ → V3) (i : ℕ) (h : i < n) : vecs (coords n f) i = f i := by
  simp [vecs, h, coords, co]

theorem vecs_coords' {n : ℕ} (f : ℕ → V3) (hf : ∀ i, ¬ i < n → f i = 0) : vecs (coords n f) = f := by
  funext i
  by_cases h : i < n
  · exact vecs_coords f i h
  · rw [hf i h]; simp [vecs, h]

theorem vecs_smul {n : ℕ} (a : ℝ) (c : X n) (i : ℕ) : vecs (a • c) i = a * vecs c i := by
  unfold vecs
  split_ifs
  · ext <;> simp
  · ext <;> simp

theorem smooth_vecs {Z : Type*} [NormedAddCommGroup Z] [NormedSpace ℝ Z] {n : ℕ} {c : Z → X n} (hc : ContDiff ℝ 1 c) (i : ℕ) :
    SmoothV fun z => vecs (c z) i := by
  by_cases h : i < n
  · have e : ∀ k, ContDiff ℝ 1 fun z => c z ⟨i, h⟩ k := fun k => contDiff_pi.mp (contDiff_pi.mp hc ⟨i, h⟩) k
    simp only [vecs, h, dif_pos]
    exact ⟨e 0, e 1, e 2⟩
  · simp only [vecs, h, dif_neg, not_false_iff]
    exact SmoothV.const 0

theorem abs_le_norm_co (a : V3) : |a.x| ≤ ‖co a‖ ∧ |a.y| ≤ ‖co a‖ ∧ |a.z| ≤ ‖co a‖ :=
  ⟨norm_le_pi_norm (co a) 0, norm_le_pi_norm (co a) 1, norm_le_pi_norm (co a) 2⟩

theorem norm_co_sq (a : V3) : ‖co a‖ ^ 2 ≤ a.dot a := by
  have h0 : 0 ≤ a.dot a := by simp only [V3.dot]; nlinarith [mul_self_nonneg a.x, mul_self_nonneg a.y, mul_self_nonneg a.z]
  have : ‖co a‖ ≤ Real.sqrt (a.dot a) := by
    rw [pi_norm_le_iff_of_nonneg (Real.sqrt_nonneg _)]
    intro k
    refine Real.le_sqrt_of_sq_le ?_
    rw [Real.norm_eq_abs, sq_abs]
    simp only [V3.dot, co]
    fin_cases k <;> simp <;> nlinarith [mul_self_nonneg a.x, mul_self_nonneg a.y, mul_self_nonneg a.z]
  calc _ ≤ Real.sqrt (a.dot a) ^ 2 := by gcongr
    _ = _ := Real.sq_sqrt h0

theorem abs_dot_le (a b : V3) : |a.dot b| ≤ 3 * (‖co a‖ * ‖co b‖) := by
  have ha := abs_le_norm_co a
  have hb := abs_le_norm_co b
  have h : ∀ x y : ℝ, |x| ≤ ‖co a‖ → |y| ≤ ‖co b‖ → |x * y| ≤ ‖co a‖ * ‖co b‖ := fun x y hx hy => by
    rw [abs_mul]; exact mul_le_mul hx hy (abs_nonneg _) (norm_nonneg _)
  have h1 := h _ _ ha.1 hb.1
  have h2 := h _ _ ha.2.1 hb.2.1
  have h3 := h _ _ ha.2.2 hb.2.2
  unfold V3.dot
  refine (abs_add_le _ _).trans ?_
  have := abs_add_le (a.x * b.x) (a.y * b.y)
  linarith

theorem norm_coords_le {n : ℕ} {f : ℕ → V3} {K : ℝ} (hK : 0 ≤ K) (h : ∀ i, i < n → ‖co (f i)‖ ≤ K) : ‖coords n f‖ ≤ K :=
  (pi_norm_le_iff_of_nonneg hK).mpr fun i => h i i.2

theorem norm_co_le_coords {n : ℕ} (f : ℕ → V3) (i : ℕ) (h : i < n) : ‖co (f i)‖ ≤ ‖coords n f‖ :=
  norm_le_pi_norm (coords n f) ⟨i, h⟩

theorem co_zero : co 0 = 0 := by
  funext k
  fin_cases k <;> rfl

theorem norm_coords_single {n : ℕ} (i : ℕ) (e : V3) : ‖coords n (single i e)‖ ≤ ‖co e‖ := by
  refine norm_coords_le (norm_nonneg _) fun k _ => ?_
  unfold single
  split_ifs
  · exact le_rfl
  · rw [co_zero, norm_zero]; exact norm_nonneg _

/-- a continuous function which is homogeneous in its second argument is bounded by its norm -/
theorem hom_bound {Z E : Type*} [NormedAddCommGroup Z] [NormedAddCommGroup E] [NormedSpace ℝ E] [ProperSpace E] {f : Z × E → ℝ}
    (hc : Continuous f) {K : Set Z} (hK : IsCompact K) (hom : ∀ z (a : ℝ) w, f (z, a • w) = a * f (z, w)) :
    ∃ B, 0 < B ∧ ∀ z ∈ K, ∀ w, |f (z, w)| ≤ B * ‖w‖ := by
  obtain ⟨C, hC⟩ := (hK.prod (isCompact_closedBall (0 : E) 1)).exists_bound_of_continuousOn hc.continuousOn
  refine ⟨max C 1, lt_max_of_lt_right one_pos, fun z hz w => ?_⟩
  by_cases hw : w = 0
  · subst hw
    have := hom z 0 0
    rw [smul_zero, zero_mul] at this
    rw [this, abs_zero, norm_zero, mul_zero]
  · have hn : 0 < ‖w‖ := norm_pos_iff.mpr hw
    have e : w = ‖w‖ • (‖w‖⁻¹ • w) := by rw [smul_smul, mul_inv_cancel₀ hn.ne', one_smul]
    have hm : (z, ‖w‖⁻¹ • w) ∈ K ×ˢ Metric.closedBall (0 : E) 1 := by
      refine ⟨hz, ?_⟩
      rw [mem_closedBall_zero_iff, norm_smul, norm_inv, norm_norm, inv_mul_cancel₀ hn.ne']
    have := hC _ hm
    rw [Real.norm_eq_abs] at this
    rw [e, hom, abs_mul, abs_of_pos hn, norm_smul, norm_norm, norm_smul, norm_inv, norm_norm, inv_mul_cancel₀ hn.ne', mul_one, mul_comm]
    exact mul_le_mul_of_nonneg_right (this.trans (le_max_left _ _)) hn.le

/-- everything that defines the equation: materials, mesh, and the fields as functions of time and state -/
structure Setting (n : ℕ) where
  G : Rule
  H : TriElem.Rule
  prm : ℕ → Prm
  sprm : ℕ → SurfPrm
  mu0 : ℝ
  theta : ℝ
  gamma0 : ℝ
  tets : List Tet
  tris : List (Tri × ℝ)
  p : ℕ → V3
  magN : ℕ → Prop
  Hext : ℝ × X n → Tet → Fin G.n → V3
  Hst : ℝ × X n → Tet → Fin G.n → V3
  phi : X n → ℕ → ℝ
  phiv : X n × X n → ℕ → ℝ

namespace Setting

variable {n : ℕ} (S : Setting n)

structure Good : Prop where
  compiled : Compiled S.G
  vol : ∀ t ∈ S.tets, 0 < detJ (fun k => S.p (t.ind k))
  alpha : ∀ t ∈ S.tets, 0 < (S.prm t.reg).alpha
  exch : ∀ t ∈ S.tets, 0 ≤ 2 * (S.prm t.reg).A / (S.mu0 * (S.prm t.reg).Ms)
  theta : 0 ≤ S.theta
  gamma0 : 0 < S.gamma0
  tetMag : ∀ t ∈ S.tets, ∀ k, S.magN (t.ind k)
  magTet : ∀ i, S.magN i → i < n ∧ ∃ t ∈ S.tets, ∃ k, t.ind k = i
  Hext : ∀ t j, SmoothV fun z => S.Hext z t j
  Hst : ∀ t j, SmoothV fun z => S.Hst z t j
  phi : ∀ i, ContDiff ℝ 1 fun c => S.phi c i
  phiv : ∀ i, ContDiff ℝ 1 fun z => S.phiv z i

/-- work of all fields at time `z.1` in the state `z.2` -/
noncomputable def work (z : ℝ × X n) (w : ℕ → V3) : ℝ :=
  totalWork S.G S.H S.prm S.sprm S.mu0 S.tets S.tris S.p (vecs z.2) (S.phi z.2) (S.Hext z) (S.Hst z) w

noncomputable def par (z : ℝ × X n) (t : Tet) (j : Fin S.G.n) : ℝ :=
  parField S.G (S.prm t.reg) S.mu0 (fun k => S.p (t.ind k)) (fun k => vecs z.2 (t.ind k)) (fun k => S.phi z.2 (t.ind k)) (S.Hext z t) (S.Hst z t) j

noncomputable def rate (z : ℝ × X n) (W : X n) (t : Tet) (j : Fin S.G.n) : V3 :=
  rateField S.G (S.prm t.reg) S.mu0 S.theta S.gamma0 (fun k => S.p (t.ind k)) (fun k => vecs z.2 (t.ind k)) (fun k => vecs W (t.ind k))
    (fun k => S.phiv (z.2, W) (t.ind k)) (S.Hst z t) j

/-- damping coefficient of a node -/
noncomputable def dmp (i : ℕ) : ℝ := lumpD S.G S.tets S.p (fun t _ => (S.prm t.reg).alpha) i

/-- effective damping coefficient of a node -/
noncomputable def dmpEff (z : ℝ × X n) (dt : ℝ) (i : ℕ) : ℝ :=
  lumpD S.G S.tets S.p (fun t j => alphaEff S.gamma0 dt (S.prm t.reg).alpha (S.par z t j)) i

/-- velocity of a node in the equation discretised in space -/
noncomputable def vel (z : ℝ × X n) (i : ℕ) : V3 :=
  nodeVel (S.dmp i) (lumpG S.G S.tets S.p i) (vecs z.2 i) (nodeForce (S.work z) i)

open Classical in
/-- right hand side of the differential equation of the coordinates -/
noncomputable def rhs (z : ℝ × X n) : X n := coords n fun i => if S.magN i then S.gamma0 * S.vel z i else 0

/-- unit vectors at the magnetic nodes, zero elsewhere -/
def Admissible (c : X n) : Prop := ∀ i, i < n → (S.magN i → (vecs c i).dot (vecs c i) = 1) ∧ (¬ S.magN i → vecs c i = 0)

/-- the equation of a time step -/
def StepEq (z : ℝ × X n) (W : X n) (dt q : ℝ) (v : ℕ → V3) : Prop :=
  (∀ i, S.magN i → (v i).dot (vecs z.2 i) = 0) ∧
  ∀ w : ℕ → V3, (∀ i, S.magN i → (w i).dot (vecs z.2 i) = 0) →
    (S.tets.map fun t =>
        damping S.G (fun k => S.p (t.ind k)) (fun j => alphaEff S.gamma0 dt (S.prm t.reg).alpha (S.par z t j))
          (fun k => v (t.ind k)) (fun k => w (t.ind k))
        + gyration S.G (fun k => S.p (t.ind k)) (fun k => vecs z.2 (t.ind k)) (fun k => v (t.ind k)) (fun k => w (t.ind k))).sum
      = S.work z w + dt * pert S.G S.prm S.mu0 S.tets S.p (S.rate z W) q v w

variable {S}

theorem smooth_work (hS : S.Good) {Z : Type*} [NormedAddCommGroup Z] [NormedSpace ℝ Z] {z : Z → ℝ × X n} {w : Z → ℕ → V3}
    (hz : ContDiff ℝ 1 z) (hw : ∀ k, SmoothV fun a => w a k) : ContDiff ℝ 1 fun a => S.work (z a) (w a) :=
  smooth_totalWork (fun k => smooth_vecs (contDiff_snd.comp hz) k) (fun k => (hS.phi k).comp (contDiff_snd.comp hz))
    (fun t j => ⟨(hS.Hext t j).x.comp hz, (hS.Hext t j).y.comp hz, (hS.Hext t j).z.comp hz⟩)
    (fun t j => ⟨(hS.Hst t j).x.comp hz, (hS.Hst t j).y.comp hz, (hS.Hst t j).z.comp hz⟩) hw

theorem smooth_par (hS : S.Good) (t : Tet) (j : Fin S.G.n) : ContDiff ℝ 1 fun z => S.par z t j :=
  smooth_parField _ _ _ (fun _ => smooth_vecs contDiff_snd _) (fun _ => (hS.phi _).comp contDiff_snd) (hS.Hext t) (hS.Hst t) j

theorem smooth_rate (hS : S.Good) (t : Tet) (j : Fin S.G.n) : SmoothV fun z : (ℝ × X n) × X n => S.rate z.1 z.2 t j :=
  smooth_rateField _ _ _ _ _ (fun _ => smooth_vecs (contDiff_snd.comp contDiff_fst) _) (fun _ => smooth_vecs contDiff_snd _)
    (fun _ => (hS.phiv _).comp ((contDiff_snd.comp contDiff_fst).prodMk contDiff_snd))
    (fun j => ⟨(hS.Hst t j).x.comp contDiff_fst, (hS.Hst t j).y.comp contDiff_fst, (hS.Hst t j).z.comp contDiff_fst⟩) j

theorem smooth_vel (hS : S.Good) (i : ℕ) : SmoothV fun z => S.vel z i := by
  have h : ∀ e, ContDiff ℝ 1 fun z => S.work z (single i e) := fun e => smooth_work hS contDiff_id fun k => SmoothV.const _
  exact smooth_nodeVel _ _ (smooth_vecs contDiff_snd i) ⟨h _, h _, h _⟩

theorem smooth_rhs (hS : S.Good) : ContDiff ℝ 1 S.rhs := by
  classical
  have h : ∀ i, SmoothV fun z => if S.magN i then S.gamma0 * S.vel z i else 0 := by
    intro i
    split_ifs
    · exact SmoothV.smul contDiff_const (smooth_vel hS i)
    · exact SmoothV.const 0
  refine contDiff_pi.mpr fun i => contDiff_pi.mpr fun k => ?_
  fin_cases k
  · exact (h i).x
  · exact (h i).y
  · exact (h i).z

theorem work_lin (z : ℝ × X n) (g h : ℕ → V3) (a b : ℝ) : S.work z (fun k => a * g k + b * h k) = a * S.work z g + b * S.work z h :=
  totalWork_lin g h a b

theorem norm_le_one {c : X n} (h : S.Admissible c) : ‖c‖ ≤ 1 := by
  rw [pi_norm_le_iff_of_nonneg zero_le_one]
  intro i
  have e : c i = co (vecs c i) := by
    funext k
    fin_cases k <;> simp [vecs, co]
  rw [e]
  by_cases hi : S.magN i
  · have h1 := norm_co_sq (vecs c i)
    rw [(h i i.2).1 hi] at h1
    nlinarith [norm_nonneg (co (vecs c i))]
  · rw [(h i i.2).2 hi, co_zero, norm_zero]
    exact zero_le_one

theorem node_step {z : ℝ × X n} {W : X n} {dt q : ℝ} {v : ℕ → V3} (h : S.StepEq z W dt q v) (i : ℕ) (e : V3) (he : e.dot (vecs z.2 i) = 0) :
    S.dmpEff z dt i * (v i).dot e + lumpG S.G S.tets S.p i * ((vecs z.2 i).cross (v i)).dot e =
      S.work z (single i e) + dt * pert S.G S.prm S.mu0 S.tets S.p (S.rate z W) q v (single i e) := by
  rw [← h.2 (single i e) (fun k _ => by
    unfold single
    split_ifs with hk
    · rw [hk]; exact he
    · simp [V3.dot]), List.sum_map_add, damping_single, gyration_single]
  rfl

theorem node_vel (hS : S.Good) {z : ℝ × X n} (hc : S.Admissible z.2) (i : ℕ) (hi : S.magN i) (e : V3) (he : e.dot (vecs z.2 i) = 0) :
    S.dmp i * (S.vel z i).dot e + lumpG S.G S.tets S.p i * ((vecs z.2 i).cross (S.vel z i)).dot e = S.work z (single i e) := by
  have hd : 0 < S.dmp i := by
    obtain ⟨t, ht, k, hk⟩ := (hS.magTet i hi).2
    refine lumpD_pos hS.compiled hS.vol hS.alpha (fun t ht j => ?_) i t ht k hk
    have := hS.alpha t ht
    constructor
    · rw [div_le_iff₀ (by norm_num)]; nlinarith
    · nlinarith
  rw [nodeForce_dot _ (fun g h a b => work_lin z g h a b) i e]
  exact nodeVel_eq _ _ hd.ne' _ _ ((hc i (hS.magTet i hi).1).1 hi) e he

theorem dmp_pos (hS : S.Good) (i : ℕ) (hi : S.magN i) : 0 < S.dmp i := by
  obtain ⟨t, ht, k, hk⟩ := (hS.magTet i hi).2
  refine lumpD_pos hS.compiled hS.vol hS.alpha (fun t ht j => ?_) i t ht k hk
  have := hS.alpha t ht
  constructor
  · rw [div_le_iff₀ (by norm_num)]; nlinarith
  · nlinarith

/-- a positive lower bound for the damping coefficients -/
theorem dmp_lower (hS : S.Good) : ∃ d, 0 < d ∧ ∀ i, S.magN i → d ≤ S.dmp i := by
  classical
  have : ∀ m, ∃ d, 0 < d ∧ ∀ i, i < m → S.magN i → d ≤ S.dmp i := by
    intro m
    induction m with
    | zero => exact ⟨1, one_pos, fun i hi => absurd hi (Nat.not_lt_zero _)⟩
    | succ m ih =>
      obtain ⟨d, hd, h⟩ := ih
      by_cases hm : S.magN m
      · refine ⟨min d (S.dmp m), lt_min hd (dmp_pos hS m hm), fun i hi hi' => ?_⟩
        rcases Nat.lt_succ_iff_lt_or_eq.mp hi with h1 | h1
        · exact (min_le_left _ _).trans (h i h1 hi')
        · rw [h1]; exact min_le_right _ _
      · refine ⟨d, hd, fun i hi hi' => ?_⟩
        rcases Nat.lt_succ_iff_lt_or_eq.mp hi with h1 | h1
        · exact h i h1 hi'
        · rw [h1] at hi'; exact absurd hi' hm
  obtain ⟨d, hd, h⟩ := this n
  exact ⟨d, hd, fun i hi => h i (hS.magTet i hi).1 hi⟩

/-- the effective damping coefficient is close to the damping coefficient -/
theorem dmpEff_close (hS : S.Good) {K : Set (ℝ × X n)} (hK : IsCompact K) :
    ∃ B, 0 < B ∧ ∀ z ∈ K, ∀ dt, 0 < dt → ∀ i, |S.dmpEff z dt i - S.dmp i| ≤ dt * B := by
  have hcont : Continuous fun z => (S.tets.map fun t => ∑ k, ∑ j, |S.G.a k j * weight S.G (fun k => S.p (t.ind k)) j| *
      (S.gamma0 / 2 * |S.par z t j|)).sum := by
    refine continuous_list_sum _ fun t _ => continuous_finsetSum _ fun k _ => continuous_finsetSum _ fun j _ =>
      continuous_const.mul (continuous_const.mul (smooth_par hS t j).continuous.abs)
  obtain ⟨B, hB⟩ := hK.exists_bound_of_continuousOn hcont.continuousOn
  refine ⟨max B 1, lt_max_of_lt_right one_pos, fun z hz dt hdt i => ?_⟩
  refine le_trans ?_ (mul_le_mul_of_nonneg_left (((le_abs_self _).trans (hB z hz)).trans (le_max_left _ _)) hdt.le)
  unfold dmpEff dmp lumpD cornerSum
  rw [← List.sum_map_mul_left]
  have key : ∀ l : List Tet, (∀ t ∈ l, t ∈ S.tets) → |(l.map fun t => ∑ k, if t.ind k = i then contrib S.G (fun k => S.p (t.ind k))
        (fun j => alphaEff S.gamma0 dt (S.prm t.reg).alpha (S.par z t j)) k else 0).sum
      - (l.map fun t => ∑ k, if t.ind k = i then contrib S.G (fun k => S.p (t.ind k)) (fun _ => (S.prm t.reg).alpha) k else 0).sum| ≤
      (l.map fun t => dt * ∑ k, ∑ j, |S.G.a k j * weight S.G (fun k => S.p (t.ind k)) j| * (S.gamma0 / 2 * |S.par z t j|)).sum := by
    intro l
    induction l with
    | nil => intro _; simp
    | cons t l ih =>
      intro hl
      simp only [List.map_cons, List.sum_cons]
      rw [add_sub_add_comm]
      refine (abs_add_le _ _).trans (add_le_add ?_ (ih fun t ht => hl t (by simp [ht])))
      rw [← Finset.sum_sub_distrib, Finset.mul_sum]
      refine (Finset.abs_sum_le_sum_abs _ _).trans (Finset.sum_le_sum fun k _ => ?_)
      have hnn : 0 ≤ dt * ∑ j, |S.G.a k j * weight S.G (fun k => S.p (t.ind k)) j| * (S.gamma0 / 2 * |S.par z t j|) :=
        mul_nonneg hdt.le (Finset.sum_nonneg fun j _ => mul_nonneg (abs_nonneg _) (mul_nonneg (by linarith [hS.gamma0]) (abs_nonneg _)))
      split_ifs
      · unfold contrib
        rw [← Finset.sum_sub_distrib, Finset.mul_sum]
        refine (Finset.abs_sum_le_sum_abs _ _).trans (Finset.sum_le_sum fun j _ => ?_)
        have h1 := alphaEff_close (h := S.par z t j) hS.gamma0 hdt (hS.alpha t (hl t (by simp)))
        have e : S.G.a k j * (weight S.G (fun k => S.p (t.ind k)) j * alphaEff S.gamma0 dt (S.prm t.reg).alpha (S.par z t j))
            - S.G.a k j * (weight S.G (fun k => S.p (t.ind k)) j * (S.prm t.reg).alpha)
            = (S.G.a k j * weight S.G (fun k => S.p (t.ind k)) j) * (alphaEff S.gamma0 dt (S.prm t.reg).alpha (S.par z t j) - (S.prm t.reg).alpha) := by
          ring
        rw [e, abs_mul]
        refine (mul_le_mul_of_nonneg_left h1 (abs_nonneg _)).trans (le_of_eq (by ring))
      · rw [sub_zero, abs_zero]; exact hnn
  exact key S.tets fun _ h => h

end Setting

end Verif.SemiDiscrete
