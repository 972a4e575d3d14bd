import Verif.Proofs.TetAffine
import Verif.Props.ContinuumPot
import Verif.Props.SpinAccSolve
import Verif.Model.SpinTorque

/-!
# C102: the spins that a current brings into a non-uniform magnetization
-/

namespace Verif.Continuum

open Verif.Mesh Verif.MeshElem Verif.Tetra Verif.Electro Verif.Assembly Verif.Rounded Verif.Krylov

section
variable {G : Tetra.Rule} {H : TriElem.Rule} {nod : ℕ} {d : SpinData}

/-- the part of the right hand side assembled from the tetrahedrons, spinAccumulationSolver.cpp:170-179 -/
noncomputable def volRhs (G : Tetra.Rule) (d : SpinData) (s : MagState) (r : ℕ) : ℝ :=
  (d.tets.map fun t => (spinTet G d.c d.p d.mag d.vol d.V s t).rhsContribution 3 r).sum

theorem SpinProblem.noTris (h : SpinProblem G H nod d) : SpinProblem G H nod { d with tris := [] } :=
  ⟨h.rule, h.ruleT, h.valid, fun _ hf => absurd hf List.not_mem_nil, h.oriented⟩

/-- the assembled source -/
noncomputable def nodalSource (d : SpinData) (n w : ℕ → V3) : ℝ :=
  (d.tets.map fun t => if t.isMagnetic d.mag then
    polarized d.c (d.vol t.reg) * tetVolume (nod4 d.p t) *
      ∑ i : Fin 4, (gradV (nod4 d.p t) (nod4 d.V t)).dot (daRow (nod4 d.p t) i) * (w (t.ind i)).dot (n (t.ind i)) else 0).sum

theorem volRhs_form (h : SpinProblem G H nod d) (s : MagState) (w : ℕ → V3) :
    ∑ r ∈ Finset.range (3 * nod), flat w r * volRhs G d s r = nodalSource d s.next w := by
  have e := spinRhs_form (SpinProblem.noTris h) s w
  simp only [List.map_nil, List.sum_nil, sub_zero] at e
  have e2 : ∀ r, spinRhs G H { d with tris := [] } s r = volRhs G d s r := fun r => by
    simp [spinRhs, volRhs]
  simp only [e2] at e
  rw [e]
  unfold nodalSource
  congr 1
  refine List.map_congr_left fun t ht => ?_
  rw [← volume_oriented h.oriented ht]
  rfl

theorem sum_daRow_dot (p : Fin 4 → V3) (g : V3) : ∑ i, g.dot (daRow p i) = 0 := by
  have h := daRow_sum p
  have hx := congrArg V3.x h
  have hy := congrArg V3.y h
  have hz := congrArg V3.z h
  simp only [Fin.sum_univ_four, V3.add_x, V3.add_y, V3.add_z, V3.zero_x, V3.zero_y, V3.zero_z] at hx hy hz ⊢
  simp only [V3.dot]
  linear_combination g.x * hx + g.y * hy + g.z * hz

theorem dot_gradV (p : Fin 4 → V3) (g : V3) (f : Fin 4 → ℝ) : g.dot (gradV p f) = ∑ i, g.dot (daRow p i) * f i := by
  unfold gradV
  simp [Fin.sum_univ_four, V3.dot]
  ring

theorem affine_source {p : Fin 4 → V3} {v : Fin 3 → Fin 4 → ℝ} {M : V3 → V3} (hM : ∀ a, AffineOn p (v a) fun x => (M x).comp a)
    (g : Fin 3 → ℝ) : AffineOn p (fun i => ∑ a, v a i * g a) fun x => ∑ a : Fin 3, (M x).comp a * g a := by
  intro l l0 l1
  have e := fun a => hM a l l0 l1
  dsimp only at e ⊢
  rw [Finset.sum_congr rfl fun a _ => by rw [e a]]
  simp only [Fin.sum_univ_three, Fin.sum_univ_four]
  ring

theorem source_alg (γ : Fin 4 → ℝ) (n w : Fin 4 → V3) :
    ((∑ a : Fin 3, (n 0).comp a * ∑ i, γ i * (w i).comp a) + (∑ a : Fin 3, (n 1).comp a * ∑ i, γ i * (w i).comp a) +
      (∑ a : Fin 3, (n 2).comp a * ∑ i, γ i * (w i).comp a) + (∑ a : Fin 3, (n 3).comp a * ∑ i, γ i * (w i).comp a)) / 4 =
      ∑ i, γ i * (w i).dot (mean4 n) := by
  simp only [mean4, Fin.sum_univ_three, Fin.sum_univ_four, V3.dot, V3.comp, V3.smul_x, V3.smul_y, V3.smul_z, V3.add_x, V3.add_y, V3.add_z]
  ring

theorem difference_alg (γ : Fin 4 → ℝ) (h0 : ∑ i, γ i = 0) (n w : Fin 4 → V3) :
    ∑ i, γ i * (w i).dot (n i) - ∑ i, γ i * (w i).dot (mean4 n) =
      (mean4 w).dot ⟨∑ i, γ i * (n i).comp 0, ∑ i, γ i * (n i).comp 1, ∑ i, γ i * (n i).comp 2⟩ +
        ∑ i, γ i * (w i - mean4 w).dot (n i - mean4 n) := by
  simp only [Fin.sum_univ_four] at h0
  simp only [mean4, Fin.sum_univ_four, V3.dot, V3.comp, V3.smul_x, V3.smul_y, V3.smul_z, V3.add_x, V3.add_y, V3.add_z, V3.sub_x, V3.sub_y,
    V3.sub_z]
  have e : γ 3 = -(γ 0 + γ 1 + γ 2) := by linarith
  rw [e]
  ring

/-- the exact source of a finite element magnetization -/
theorem spinSource_eq (hor : ∀ t ∈ d.tets, 0 < detJ (nod4 d.p t)) {n : ℕ → V3} {M : V3 → V3} (hM : FieldOf d.p d.tets n M)
    (w : ℕ → V3) : spinSource d M w = (d.tets.map fun t => if t.isMagnetic d.mag then
    polarized d.c (d.vol t.reg) * tetVolume (nod4 d.p t) *
      ∑ i : Fin 4, (gradV (nod4 d.p t) (nod4 d.V t)).dot (daRow (nod4 d.p t) i) * (w (t.ind i)).dot (mean4 (nod4 n t))
    else 0).sum := by
  unfold spinSource
  congr 1
  refine List.map_congr_left fun t ht => ?_
  split_ifs
  · rw [tetIntegral_affine (hor t ht).ne' (affine_source (hM t ht) _)]
    rw [← source_alg, ← mul_assoc]
    simp only [dot_gradV]
    rfl
  · rfl

/-- **C102** (what is assembled instead). On each magnetic element the assembled source differs from the exact one by the deviation of the
magnetization at the nodes from its mean. -/
theorem C102_difference (h : SpinProblem G H nod d) (s : MagState) {M : V3 → V3} (hM : FieldOf d.p d.tets s.next M) (w : ℕ → V3) :
    ∑ r ∈ Finset.range (3 * nod), flat w r * volRhs G d s r - spinSource d M w =
      (d.tets.map fun t => if t.isMagnetic d.mag then
        polarized d.c (d.vol t.reg) * tetVolume (nod4 d.p t) *
          ((mean4 (nod4 w t)).dot (along d.p t (gradV (nod4 d.p t) (nod4 d.V t)) s.next) +
           ∑ i : Fin 4, (gradV (nod4 d.p t) (nod4 d.V t)).dot (daRow (nod4 d.p t) i) *
             (w (t.ind i) - mean4 (nod4 w t)).dot (s.next (t.ind i) - mean4 (nod4 s.next t)))
      else 0).sum := by
  rw [volRhs_form h, spinSource_eq h.oriented hM, nodalSource, ← sum_map_sub']
  congr 1
  refine List.map_congr_left fun t _ => ?_
  split_ifs
  · rw [← mul_sub]
    congr 1
    simp only [along, dot_gradV]
    exact difference_alg (fun i => (gradV (nod4 d.p t) (nod4 d.V t)).dot (daRow (nod4 d.p t) i)) (sum_daRow_dot _ _) (nod4 s.next t) (nod4 w t)
  · simp

/-- **C102** (partial: only for a magnetization uniform on every magnetic element). The assembled source is the exact one. -/
theorem C102_source_partial (h : SpinProblem G H nod d) (s : MagState) {M : V3 → V3} (hM : FieldOf d.p d.tets s.next M)
    (hu : ∀ t ∈ d.tets, t.isMagnetic d.mag → ∀ i k, s.next (t.ind i) = s.next (t.ind k)) (w : ℕ → V3) :
    ∑ r ∈ Finset.range (3 * nod), flat w r * volRhs G d s r = spinSource d M w := by
  rw [volRhs_form h, spinSource_eq h.oriented hM, nodalSource]
  congr 1
  refine List.map_congr_left fun t ht => ?_
  by_cases hm : t.isMagnetic d.mag
  · rw [if_pos hm, if_pos hm]
    congr 1
    refine Finset.sum_congr rfl fun i _ => ?_
    have : mean4 (nod4 s.next t) = s.next (t.ind i) := by
      have e : ∀ k, nod4 s.next t k = s.next (t.ind i) := fun k => hu t ht hm k i
      rw [mean4, Fin.sum_univ_four, e, e, e, e]
      ext <;> simp <;> ring
    rw [this]
  · rw [if_neg hm, if_neg hm]

/-- size of the second order part of the difference on a regular element: first order in the mesh size -/
theorem remainder_le {p : Fin 4 → V3} (hp : 0 < detJ p) {h κ : ℝ} (h0 : 0 < h) (hr : Regular h κ p) (g : V3) (w n : Fin 4 → V3) {A B : ℝ}
    (hw : ∀ i k, (w i - w k).norm ≤ A * h) (hn : ∀ i k, (n i - n k).norm ≤ B * h) :
    |∑ i, g.dot (daRow p i) * (w i - mean4 w).dot (n i - mean4 n)| ≤ 2 * (κ * g.norm * A * B * h) := by
  have hk := kappa_nonneg h0 hr
  have dev : ∀ (v : Fin 4 → V3) (C : ℝ), (∀ i k, (v i - v k).norm ≤ C) → ∀ i, (v i - mean4 v).norm ≤ C := by
    intro v C hv i
    have e : v i - mean4 v = (1 / 4 : ℝ) * ∑ k, (v i - v k) := by
      rw [mean4, Fin.sum_univ_four, Fin.sum_univ_four]
      ext <;> simp <;> ring
    rw [e, norm_smul']
    have := norm_sum_le' fun k => v i - v k
    simp only [Fin.sum_univ_four] at this ⊢
    have := hv i 0
    have := hv i 1
    have := hv i 2
    have := hv i 3
    rw [abs_of_pos (by norm_num)]
    linarith
  have dl : ∀ i, (daRow p i).norm ≤ κ / 2 / h := by
    have l : ∀ i : Fin 3, (daRow p i.succ).norm ≤ κ / 6 / h := daRow_le hp h0 hr
    have e : daRow p 0 = -(daRow p 1 + (daRow p 2 + daRow p 3)) := by
      have h := daRow_sum p
      rw [Fin.sum_univ_four] at h
      have hx := congrArg V3.x h
      have hy := congrArg V3.y h
      have hz := congrArg V3.z h
      simp only [V3.add_x, V3.add_y, V3.add_z, V3.zero_x, V3.zero_y, V3.zero_z] at hx hy hz
      ext <;> simp <;> linarith
    have q : 0 ≤ κ / 6 / h := by positivity
    have q2 : κ / 2 / h = 3 * (κ / 6 / h) := by ring
    intro i
    rw [q2]
    fin_cases i
    · show (daRow p 0).norm ≤ _
      rw [e, norm_neg']
      have h1 := norm_add_le' (daRow p 1) (daRow p 2 + daRow p 3)
      have h2 := norm_add_le' (daRow p 2) (daRow p 3)
      have l0 := l 0
      have l1 := l 1
      have l2 := l 2
      simp only [Fin.succ_zero_eq_one] at l0
      have l1 : (daRow p 2).norm ≤ κ / 6 / h := l1
      have l2 : (daRow p 3).norm ≤ κ / 6 / h := l2
      linarith
    · exact (l 0).trans (by linarith)
    · exact (l 1).trans (by linarith)
    · exact (l 2).trans (by linarith)
  have A0 : 0 ≤ A * h := (norm_nonneg _).trans (hw 0 0)
  have B0 : 0 ≤ B * h := (norm_nonneg _).trans (hn 0 0)
  have each : ∀ i, |g.dot (daRow p i) * (w i - mean4 w).dot (n i - mean4 n)| ≤ (g.norm * (κ / 2 / h)) * (A * h * (B * h)) := by
    intro i
    rw [abs_mul]
    refine mul_le_mul ((Rounded.abs_dot_le _ _).trans (mul_le_mul_of_nonneg_left (dl i) (norm_nonneg _))) ((Rounded.abs_dot_le _ _).trans
      (mul_le_mul (dev w _ hw i) (dev n _ hn i) (norm_nonneg _) A0)) (abs_nonneg _) (mul_nonneg (norm_nonneg _) (by positivity))
  refine (Finset.abs_sum_le_sum_abs _ _).trans ((Finset.sum_le_sum fun i _ => each i).trans ?_)
  rw [Finset.sum_const, Finset.card_univ, Fintype.card_fin, nsmul_eq_mul]
  have : (4 : ℕ) * (g.norm * (κ / 2 / h) * (A * h * (B * h))) = 2 * (κ * g.norm * A * B * h) := by
    push_cast
    field_simp
    ring
  rw [this]

theorem abs_list_sum_le {α : Type} (l : List α) (f : α → ℝ) : |(l.map f).sum| ≤ (l.map fun a => |f a|).sum := by
  induction l with
  | nil => simp
  | cons a l ih =>
    simp only [List.map_cons, List.sum_cons]
    exact (abs_add_le _ _).trans (by linarith)

/-- **C102** (what is missing). The assembled source lacks the divergence of the direction of the spins: it is the exact source plus
`(μB P σ / e) w·(∇V·∇)M`, up to a term of the order of the mesh size. -/
theorem C102_missing (hp : SpinProblem G H nod d) (s : MagState) {M : V3 → V3} (hM : FieldOf d.p d.tets s.next M) (w : ℕ → V3)
    {h κ A B g : ℝ} (h0 : 0 < h) (hr : ∀ t ∈ d.tets, Regular h κ (nod4 d.p t))
    (hg : ∀ t ∈ d.tets, (gradV (nod4 d.p t) (nod4 d.V t)).norm ≤ g)
    (hw : ∀ t ∈ d.tets, ∀ i k, (w (t.ind i) - w (t.ind k)).norm ≤ A * h)
    (hn : ∀ t ∈ d.tets, ∀ i k, (s.next (t.ind i) - s.next (t.ind k)).norm ≤ B * h) :
    |∑ r ∈ Finset.range (3 * nod), flat w r * volRhs G d s r - (spinSource d M w + turning d s.next w)| ≤
      2 * (κ * g * A * B * h) * (d.tets.map fun t => |polarized d.c (d.vol t.reg)| * tetVolume (nod4 d.p t)).sum := by
  have e := C102_difference hp s hM w
  have e2 : ∑ r ∈ Finset.range (3 * nod), flat w r * volRhs G d s r - (spinSource d M w + turning d s.next w) =
      (d.tets.map fun t => if t.isMagnetic d.mag then polarized d.c (d.vol t.reg) * tetVolume (nod4 d.p t) *
           ∑ i : Fin 4, (gradV (nod4 d.p t) (nod4 d.V t)).dot (daRow (nod4 d.p t) i) *
             (w (t.ind i) - mean4 (nod4 w t)).dot (s.next (t.ind i) - mean4 (nod4 s.next t)) else 0).sum := by
    rw [← sub_sub, e, turning, ← sum_map_sub']
    congr 1
    refine List.map_congr_left fun t _ => ?_
    split_ifs
    · ring
    · simp
  rw [e2, ← List.sum_map_mul_left]
  refine (abs_list_sum_le _ _).trans (List.sum_le_sum fun t ht => ?_)
  have hb := remainder_le (hp.oriented t ht) h0 (hr t ht) (gradV (nod4 d.p t) (nod4 d.V t)) (nod4 w t) (nod4 s.next t) (hw t ht) (hn t ht)
  have hv : 0 ≤ tetVolume (nod4 d.p t) := by rw [tetVolume_eq]; positivity
  have A0 : 0 ≤ A := nonneg_of_mul_nonneg_left ((norm_nonneg _).trans (hw t ht 0 0)) h0
  have B0 : 0 ≤ B := nonneg_of_mul_nonneg_left ((norm_nonneg _).trans (hn t ht 0 0)) h0
  have k0 := kappa_nonneg h0 (hr t ht)
  have hb2 : 2 * (κ * (gradV (nod4 d.p t) (nod4 d.V t)).norm * A * B * h) ≤ 2 * (κ * g * A * B * h) := by
    have := hg t ht
    gcongr
  split_ifs
  · rw [abs_mul, abs_mul, abs_of_nonneg hv, mul_comm]
    exact mul_le_mul_of_nonneg_right (hb.trans hb2) (by positivity)
  · rw [abs_zero]
    have : 0 ≤ 2 * (κ * g * A * B * h) := (abs_nonneg _).trans (hb.trans hb2)
    positivity

/-- where the current is conserved the assembled source vanishes -/
theorem nodalSource_zero (hor : ∀ t ∈ d.tets, 0 < detJ (nod4 d.p t)) {SV : ℕ → Prop}
    (hV : WeakPotential d.p (fun r => (d.vol r).sigma) (fun r => currentDensity (d.surf r)) d.tets d.tris SV d.V) {P : ℝ} {w : ℕ → V3}
    (hS : ∀ i, SV i → w i = 0) (hJ : ∀ f ∈ d.tris, currentDensity (d.surf f.reg) ≠ 0 → ∀ k, w (f.ind k) = 0)
    (hP : ∀ t ∈ d.tets, (∃ i, w (t.ind i) ≠ 0) → t.isMagnetic d.mag ∧ (d.vol t.reg).P.val = P) (n : ℕ → V3) :
    nodalSource d n w = 0 := by
  have hz : ∀ {i}, w i = 0 → (w i).dot (n i) = 0 := fun h => by rw [h]; simp [V3.dot]
  have e := hV (fun i => (w i).dot (n i)) fun i hi => hz (hS i hi)
  rw [weakForm_integral hor] at e
  have e2 : (d.tris.map fun f => currentDensity (d.surf f.reg) * triAffine (nod3 d.p f) (nod3 (fun i => (w i).dot (n i)) f)).sum = 0 := by
    apply List.sum_eq_zero
    intro y hy
    obtain ⟨f, hf, rfl⟩ := List.mem_map.mp hy
    by_cases h : currentDensity (d.surf f.reg) = 0
    · rw [h, zero_mul]
    · have := hJ f hf h
      rw [triAffine_eq]
      simp only [nod3, hz (this _)]
      ring
  rw [e2, add_zero] at e
  have e3 : nodalSource d n w = d.c.mub * P / d.c.e * (d.tets.map fun t => (d.vol t.reg).sigma * (tetVolume (nod4 d.p t) *
        (gradV (nod4 d.p t) (nod4 d.V t)).dot (gradV (nod4 d.p t) (nod4 (fun i => (w i).dot (n i)) t)))).sum := by
    rw [nodalSource, ← List.sum_map_mul_left]
    congr 1
    refine List.map_congr_left fun t ht => ?_
    rw [dot_gradV]
    by_cases hw : ∃ i, w (t.ind i) ≠ 0
    · obtain ⟨h1, h2⟩ := hP t ht hw
      rw [if_pos h1, polarized, h2]
      simp only [nod4]
      ring
    · push Not at hw
      simp only [nod4, hz (hw _), mul_zero, Finset.sum_const_zero, ite_self]
  rw [e3, e, mul_zero]

/-- **C102** (what is assembled). At a node away from the electrodes, inside one magnetic material, nothing is assembled, whatever the
magnetization: the sum is the balance of the current at the node, times the magnetization of the node. -/
theorem C102_vanishes (h : SpinProblem G H nod d) {SV : ℕ → Prop}
    (hV : WeakPotential d.p (fun r => (d.vol r).sigma) (fun r => currentDensity (d.surf r)) d.tets d.tris SV d.V) {i : ℕ} (hi : i < nod)
    (hS : ¬ SV i) (hJ : ∀ f ∈ d.tris, (∃ k, f.ind k = i) → currentDensity (d.surf f.reg) = 0) {P : ℝ}
    (hP : ∀ t ∈ d.tets, (∃ k, t.ind k = i) → t.isMagnetic d.mag ∧ (d.vol t.reg).P.val = P) (s : MagState) (a : Fin 3) :
    volRhs G d s (3 * i + a) = 0 := by
  have hne : ∀ k, unit3 (3 * i + a) k ≠ 0 → k = i := by
    intro k hk
    by_contra hki
    apply hk
    unfold unit3
    have := a.2
    rw [if_neg (by omega), if_neg (by omega), if_neg (by omega)]
    rfl
  have e := volRhs_form h s (unit3 (3 * i + a))
  rw [Finset.sum_eq_single (3 * i + (a : ℕ)), flat_unit3, if_pos rfl, one_mul] at e
  · rw [e]
    refine nodalSource_zero h.oriented hV (P := P) ?_ ?_ ?_ _
    · intro k hk
      by_contra h0
      exact hS (hne k h0 ▸ hk)
    · intro f hf hj k
      by_contra h0
      exact hj (hJ f hf ⟨k, hne _ h0⟩)
    · rintro t ht ⟨k, hk⟩
      exact hP t ht ⟨k, hne _ hk⟩
  · intro b _ hb
    rw [flat_unit3, if_neg hb, zero_mul]
  · intro hn
    exact absurd (Finset.mem_range.mpr (by have := a.2; omega)) hn

/-- the same body without polarization -/
def unpolarized (d : SpinData) : SpinData := { d with vol := fun r => { d.vol r with P := .fin 0 } }

/-- the weak form is that of an unpolarized body minus the assembled source -/
theorem spinWeak_source (hor : ∀ t ∈ d.tets, 0 < detJ (nod4 d.p t)) (m n w x : ℕ → V3) :
    spinWeak d m n w x = spinWeak (unpolarized d) m n w x - nodalSource d n w := by
  unfold spinWeak nodalSource
  simp only [unpolarized]
  rw [show ∀ a b c : ℝ, a + b - c = (a - c) + b from fun a b c => by ring, ← sum_map_sub']
  congr 2
  refine List.map_congr_left fun t ht => ?_
  rw [← volume_oriented hor ht]
  by_cases hm : t.isMagnetic d.mag = true
  · simp only [hm, if_true, polarized, diffusivity, show Fl.val (.fin 0) = 0 from rfl]
    ring
  · simp only [hm, diffusivity]
    simp

/-- hypotheses on the body of the next theorems: one magnetic material as to polarization, a conserved current, and the nodes `S` contain
those of the electrode and of the surface through which the current enters -/
structure Wire (d : SpinData) (SV S : ℕ → Prop) (P : ℝ) : Prop where
  current : WeakPotential d.p (fun r => (d.vol r).sigma) (fun r => currentDensity (d.surf r)) d.tets d.tris SV d.V
  electrode : ∀ i, SV i → S i
  entry : ∀ f ∈ d.tris, currentDensity (d.surf f.reg) ≠ 0 → ∀ k, S (f.ind k)
  magnetic : ∀ t ∈ d.tets, t.isMagnetic d.mag
  pol : ∀ t ∈ d.tets, (d.vol t.reg).P.val = P

theorem Wire.zero {SV S : ℕ → Prop} {P : ℝ} (hor : ∀ t ∈ d.tets, 0 < detJ (nod4 d.p t)) (h : Wire d SV S P) {w : ℕ → V3}
    (hw : ∀ i, S i → w i = 0) (n : ℕ → V3) : nodalSource d n w = 0 :=
  nodalSource_zero hor h.current (fun i hi => hw i (h.electrode i hi)) (fun f hf hj k => hw _ (h.entry f hf hj k))
    (fun t ht _ => ⟨h.magnetic t ht, h.pol t ht⟩) n

theorem unpolarized_problem (h : SpinProblem G H nod d) : SpinProblem G H nod (unpolarized d) :=
  ⟨h.rule, h.ruleT, h.valid, h.validT, h.oriented⟩

/-- **C102** (what is computed). In a magnetic wire the current goes unnoticed: after any computations, the system has the solutions it would
have if the material were not polarized at all. -/
theorem C102_ignored (h : SpinProblem G H nod d) {SV S : ℕ → Prop} {P : ℝ} (hw : Wire d SV S P) (hs : List MagState) :
    ∃ sys sys', (SpinSys.new nod d.tets).history G H d.c d.p d.mag d.vol d.surf d.V d.tets d.tris hs = some sys ∧
      (SpinSys.new nod d.tets).history G H d.c d.p d.mag (fun r => { d.vol r with P := .fin 0 }) d.surf d.V d.tets d.tris hs = some sys' ∧
      ∀ x : ℕ → V3, sys.Solved nod S x ↔ sys'.Solved nod S x := by
  obtain ⟨sys, h1, h2⟩ := C45_history h hs
  obtain ⟨sys', h1', h2'⟩ := C45_history (unpolarized_problem h) hs
  refine ⟨sys, sys', h1, h1', fun x => ?_⟩
  rw [h2, h2']
  refine forall_congr' fun w => forall_congr' fun hw0 => ?_
  rw [List.map_congr_left fun s _ => by rw [spinWeak_source h.oriented, hw.zero h.oriented hw0, sub_zero]]

theorem spinForm_same (h : SpinProblem G H nod d) (s s' : MagState) (x : ℕ → V3) :
    ∑ r ∈ Finset.range (3 * nod), ∑ q ∈ Finset.range (3 * nod), flat x r * spinCoef G d s r q * flat x q =
      ∑ r ∈ Finset.range (3 * nod), ∑ q ∈ Finset.range (3 * nod), flat x r * spinCoef G d s' r q * flat x q := by
  rw [spinCoef_form h, spinCoef_form h]
  simp only [dot_cross_self, Finset.sum_const_zero, zero_div, mul_zero, ite_self]

/-- **C102** (what is computed). If moreover no spins are brought from outside, the accumulation is zero everywhere, whatever the current and the
magnetizations: a current through a domain wall does nothing. -/
theorem C102_no_accumulation (h : SpinProblem G H nod d) (hm : ∀ t ∈ d.tets, Material d.c (d.vol t.reg)) {SV S : ℕ → Prop} {P : ℝ}
    (hw : Wire d SV S P) (hf : ∀ f ∈ d.tris, (∀ k, S (f.ind k)) ∨ ∀ a, flow d.c (d.surf f.reg) a = 0) (hs : List MagState) (hne : hs ≠ []) :
    ∃ sys, (SpinSys.new nod d.tets).history G H d.c d.p d.mag d.vol d.surf d.V d.tets d.tris hs = some sys ∧
      ∀ x : ℕ → V3, sys.Solved nod S x → (∀ i, S i → x i = 0) → ∀ t ∈ d.tets, ∀ k, x (t.ind k) = 0 := by
  obtain ⟨sys, h1, h2⟩ := C45_history h hs
  refine ⟨sys, h1, fun x hx hx0 t ht k => ?_⟩
  have hsum := (h2 S x).mp hx x hx0
  set d' : SpinData := { unpolarized d with tris := [] } with hd'
  have p' : SpinProblem G H nod d' := SpinProblem.noTris (unpolarized_problem h)
  have tri : ∀ m n, spinWeak (unpolarized d) m n x x = spinWeak d' m n x x := by
    intro m n
    have e : (d.tris.map fun f => TriElem.surf (nod3 d.p f) * ∑ a : Fin 3, flow d.c (d.surf f.reg) a *
      (((x (f.ind 0)).comp a + (x (f.ind 1)).comp a + (x (f.ind 2)).comp a) / 3)).sum = 0 := by
      apply List.sum_eq_zero
      intro y hy
      obtain ⟨f, hf', rfl⟩ := List.mem_map.mp hy
      rcases hf f hf' with hS | h0
      · rw [hx0 _ (hS 0), hx0 _ (hS 1), hx0 _ (hS 2)]
        simp [Fin.sum_univ_three, V3.comp]
      · simp [h0]
    have e' : ∀ a b c : ℝ, b = c → a + b = a + c := fun a b c h => by rw [h]
    exact e' _ _ _ e
  have form : ∀ s : MagState, spinWeak d s.cur s.next x x =
      ∑ r ∈ Finset.range (3 * nod), ∑ q ∈ Finset.range (3 * nod), flat x r * spinCoef G d' s r q * flat x q := by
    intro s
    rw [spinWeak_source h.oriented, hw.zero h.oriented hx0, sub_zero, tri, spinWeak_eq p']
    have e := spinRhs_form p' s x
    have e0 : ∀ r, (d'.vol r).P.val = 0 := fun r => rfl
    have e1 : d'.tris = [] := rfl
    simp only [e0, e1, List.map_nil, List.sum_nil, sub_zero, mul_zero, zero_mul, zero_div, ite_self, List.map_const', List.sum_replicate,
      smul_zero] at e
    simp only [mul_sub, Finset.sum_sub_distrib, e, sub_zero, Finset.mul_sum, mul_assoc]
  obtain ⟨s0, hs0⟩ := List.exists_mem_of_ne_nil hs hne
  have e2 : (hs.map fun s => spinWeak d s.cur s.next x x) = hs.map fun _ => spinWeak d s0.cur s0.next x x :=
    List.map_congr_left fun s _ => by rw [form, form, spinForm_same p' s s0]
  rw [e2, List.map_const', List.sum_replicate, nsmul_eq_mul] at hsum
  have hl : (hs.length : ℝ) ≠ 0 := by
    rw [Nat.cast_ne_zero]
    exact fun hl => hne (List.length_eq_zero_iff.mp hl)
  have h0 := (mul_eq_zero.mp hsum).resolve_left hl
  rw [form] at h0
  have hm' : ∀ t ∈ d'.tets, Material d'.c (d'.vol t.reg) := fun t ht => ⟨(hm t ht).e, (hm t ht).sigma, (hm t ht).N0, (hm t ht).lsf⟩
  exact spin_form_zero p' hm' s0 x h0 t ht k

/-- **C102** (what the magnetization feels of it): nothing. -/
theorem C102_no_torque (h : SpinProblem G H nod d) (hm : ∀ t ∈ d.tets, Material d.c (d.vol t.reg)) {SV S : ℕ → Prop} {P : ℝ}
    (hw : Wire d SV S P) (hf : ∀ f ∈ d.tris, (∀ k, S (f.ind k)) ∨ ∀ a, flow d.c (d.surf f.reg) a = 0) (hs : List MagState) (hne : hs ≠ []) :
    ∃ sys, (SpinSys.new nod d.tets).history G H d.c d.p d.mag d.vol d.surf d.V d.tets d.tris hs = some sys ∧
      ∀ x : ℕ → V3, sys.Solved nod S x → (∀ i, S i → x i = 0) → ∀ (on conv : Bool) (gamma0 : ℝ) (Ms : ℕ → ℝ), ∀ t ∈ d.tets, ∀ j : Fin G.n,
        SpinTorque.extraField G on d.c d.mag d.vol gamma0 Ms (SpinTorque.afterCompute conv x) t j = 0 := by
  obtain ⟨sys, h1, h2⟩ := C102_no_accumulation h hm hw hf hs hne
  refine ⟨sys, h1, fun x hx hx0 on conv gamma0 Ms t ht j => ?_⟩
  have z := h2 x hx hx0 t ht
  have z' : nod4 (SpinTorque.afterCompute conv x) t = fun _ => 0 := by
    funext k
    unfold SpinTorque.afterCompute nod4
    split_ifs
    · exact z k
    · rfl
  unfold SpinTorque.extraField SpinTorque.calcHst interpV
  rw [z']
  split_ifs
  · ext <;> simp [Fin.sum_univ_four]
  · rfl

end

/-- no accumulation, no source: the weak form vanishes for test fields that vanish on the surface -/
theorem spinWeak_zero {d : SpinData} {m n w x : ℕ → V3} (hx : ∀ t ∈ d.tets, ∀ k, x (t.ind k) = 0) (hw : ∀ f ∈ d.tris, ∀ k, w (f.ind k) = 0) :
    spinWeak (unpolarized d) m n w x = 0 := by
  unfold spinWeak
  have e1 : ∀ t ∈ d.tets, ∀ a, comp4 x a t = fun _ => 0 := by
    intro t ht a
    funext k
    unfold comp4
    rw [hx t ht k]
    fin_cases a <;> rfl
  rw [List.sum_eq_zero, List.sum_eq_zero, add_zero]
  · intro y hy
    obtain ⟨f, hf, rfl⟩ := List.mem_map.mp hy
    have hf : f ∈ d.tris := hf
    simp [hw f hf, Fin.sum_univ_three, V3.comp]
  · intro y hy
    obtain ⟨t, ht, rfl⟩ := List.mem_map.mp hy
    have ht : t ∈ d.tets := ht
    have h0 : ((unpolarized d).vol t.reg).P.val = 0 := rfl
    simp only [h0, e1 t ht, gradV_const, hx t ht]
    simp [V3.dot, V3.cross]

/-! ## example: a wall crossed by a current

Two tetrahedrons that share the origin, where the magnetization is along y; it is along x at the electrode `z = -1` and along -x at the
entry `z = 1`. The potential is `z`. -/

def wallP (i : ℕ) : V3 :=
  match i with
  | 0 => ⟨1, 0, -1⟩ | 1 => ⟨0, 1, -1⟩ | 2 => ⟨-1, -1, -1⟩ | 3 => ⟨0, 0, 0⟩ | 4 => ⟨1, 0, 1⟩ | 5 => ⟨0, 1, 1⟩ | _ => ⟨-1, -1, 1⟩

def wallLow : Tet := ⟨![0, 1, 2, 3], 0⟩
def wallUp : Tet := ⟨![4, 6, 5, 3], 0⟩

/-- the magnetization at the nodes -/
def wallN (i : ℕ) : V3 := if i ≤ 2 then ⟨1, 0, 0⟩ else if i = 3 then ⟨0, 1, 0⟩ else ⟨-1, 0, 0⟩

/-- and in the body -/
noncomputable def wallM (x : V3) : V3 := ⟨-x.z, 1 - |x.z|, 0⟩

/-- electrode: region 1, at the potential -1, no spins; entry: region 2, current density -1/3, not polarized -/
noncomputable def wallSurf (r : ℕ) : SurfPrm :=
  if r = 1 then ⟨"electrode", .nan, .fin (-1), fun _ => .nan, fun _ => .fin 0⟩
  else ⟨"entry", .fin (-1 / 3), .nan, fun _ => .fin 0, fun _ => .nan⟩

noncomputable def wallVol : VolPrm := ⟨"wire", 1, 1, .fin 1, .fin (1 / 2), 1, 1⟩

noncomputable def wallD : SpinData where
  c := ⟨1, 1⟩
  p := wallP
  mag := fun _ => true
  vol := fun _ => wallVol
  surf := wallSurf
  V := fun i => (wallP i).z
  tets := [wallLow, wallUp]
  tris := [⟨![0, 2, 1], 1⟩, ⟨![4, 5, 6], 2⟩]

theorem wall_detJ : detJ (nod4 wallP wallLow) = 3 ∧ detJ (nod4 wallP wallUp) = 3 := by
  constructor
  · rw [detJ_eq]
    simp [nod4, wallP, wallLow, V3.dot, V3.cross]
    norm_num
  · rw [detJ_eq]
    simp [nod4, wallP, wallUp, V3.dot, V3.cross]
    norm_num

theorem wall_volume : tetVolume (nod4 wallP wallLow) = 1 / 2 ∧ tetVolume (nod4 wallP wallUp) = 1 / 2 := by
  rw [tetVolume_eq, tetVolume_eq, wall_detJ.1, wall_detJ.2]
  norm_num

theorem wall_gradV : gradV (nod4 wallP wallLow) (nod4 (fun i => (wallP i).z) wallLow) = ⟨0, 0, 1⟩ ∧
    gradV (nod4 wallP wallUp) (nod4 (fun i => (wallP i).z) wallUp) = ⟨0, 0, 1⟩ := by
  have h1 := (C35_affine rule1 (nod4 wallP wallLow) (by rw [wall_detJ.1]; norm_num) 0 ⟨0, 0, 1⟩).2.1
  have h2 := (C35_affine rule1 (nod4 wallP wallUp) (by rw [wall_detJ.2]; norm_num) 0 ⟨0, 0, 1⟩).2.1
  simp only [V3.dot, zero_mul, zero_add, one_mul] at h1 h2
  exact ⟨h1, h2⟩

theorem wall_da : (∀ i, V3.dot ⟨0, 0, 1⟩ (daRow (nod4 wallP wallLow) i) = ![-1 / 3, -1 / 3, -1 / 3, 1] i) ∧
    ∀ i, V3.dot ⟨0, 0, 1⟩ (daRow (nod4 wallP wallUp) i) = ![1 / 3, 1 / 3, 1 / 3, -1] i := by
  constructor
  · intro i
    rw [daRow_eq, wall_detJ.1]
    fin_cases i <;> simp [gradNum, nod4, wallP, wallLow, V3.dot, V3.cross] <;> norm_num
  · intro i
    rw [daRow_eq, wall_detJ.2]
    fin_cases i <;> simp [gradNum, nod4, wallP, wallUp, V3.dot, V3.cross]
    norm_num

theorem wall_problem : SpinProblem Tetra.rule5 TriElem.rule4 7 wallD where
  rule := Or.inr rfl
  ruleT := Or.inr rfl
  valid := by
    intro t ht k
    have ht : t ∈ [wallLow, wallUp] := ht
    simp only [List.mem_cons, List.not_mem_nil, or_false] at ht
    rcases ht with rfl | rfl <;> fin_cases k <;> decide
  validT := by
    intro f hf k
    have hf : f ∈ [(⟨![0, 2, 1], 1⟩ : Tri), ⟨![4, 5, 6], 2⟩] := hf
    simp only [List.mem_cons, List.not_mem_nil, or_false] at hf
    rcases hf with rfl | rfl <;> fin_cases k <;> decide
  oriented := by
    intro t ht
    have ht : t ∈ [wallLow, wallUp] := ht
    simp only [List.mem_cons, List.not_mem_nil, or_false] at ht
    rcases ht with rfl | rfl
    · show 0 < detJ (nod4 wallP wallLow)
      rw [wall_detJ.1]; norm_num
    · show 0 < detJ (nod4 wallP wallUp)
      rw [wall_detJ.2]; norm_num

theorem wall_density : currentDensity (wallSurf 1) = 0 ∧ currentDensity (wallSurf 2) = -1 / 3 := by
  constructor
  · unfold currentDensity wallSurf
    rw [if_pos rfl, if_neg (by simp [Fl.IsFin])]
  · unfold currentDensity wallSurf
    rw [if_neg (show ¬ (2 : ℕ) = 1 by norm_num), if_pos (by simp [Fl.IsFin])]
    rfl

theorem wall_area : triArea (nod3 wallP ⟨![4, 5, 6], 2⟩) = 3 / 2 := by
  have : ((nod3 wallP ⟨![4, 5, 6], 2⟩ 1 - nod3 wallP ⟨![4, 5, 6], 2⟩ 0).cross
      (nod3 wallP ⟨![4, 5, 6], 2⟩ 2 - nod3 wallP ⟨![4, 5, 6], 2⟩ 0)).norm = 3 := by
    have : ((nod3 wallP ⟨![4, 5, 6], 2⟩ 1 - nod3 wallP ⟨![4, 5, 6], 2⟩ 0).cross
      (nod3 wallP ⟨![4, 5, 6], 2⟩ 2 - nod3 wallP ⟨![4, 5, 6], 2⟩ 0)) = ⟨0, 0, 3⟩ := by
      ext <;> simp [nod3, wallP, V3.cross]
      norm_num
    rw [this]
    simp [V3.norm, V3.nsq]
  rw [triArea, this]

/-- electrode and entry -/
def wallS (i : ℕ) : Prop := i ≠ 3

theorem wall_wire : Wire wallD (· ≤ 2) wallS (1 / 2) where
  current := by
    intro w hw
    rw [weakForm_integral wall_problem.oriented]
    show ((1 : ℝ) * (tetVolume (nod4 wallP wallLow) * (gradV (nod4 wallP wallLow) (nod4 (fun i => (wallP i).z) wallLow)).dot
        (gradV (nod4 wallP wallLow) (nod4 w wallLow))) + (1 * (tetVolume (nod4 wallP wallUp) *
        (gradV (nod4 wallP wallUp) (nod4 (fun i => (wallP i).z) wallUp)).dot (gradV (nod4 wallP wallUp) (nod4 w wallUp))) + 0)) +
      (currentDensity (wallSurf 1) * triAffine (nod3 wallP ⟨![0, 2, 1], 1⟩) (nod3 w ⟨![0, 2, 1], 1⟩) +
        (currentDensity (wallSurf 2) * triAffine (nod3 wallP ⟨![4, 5, 6], 2⟩) (nod3 w ⟨![4, 5, 6], 2⟩) + 0)) = 0
    rw [wall_gradV.1, wall_gradV.2, wall_volume.1, wall_volume.2, wall_density.1, wall_density.2, dot_gradV, dot_gradV, triAffine_eq,
      triAffine_eq, wall_area]
    simp only [wall_da.1, wall_da.2, Fin.sum_univ_four]
    simp [nod4, nod3, wallLow, wallUp, hw 0, hw 1, hw 2]
    ring
  electrode := by
    intro i hi
    unfold wallS
    omega
  entry := by
    intro f hf hj k
    have hf : f ∈ [(⟨![0, 2, 1], 1⟩ : Tri), ⟨![4, 5, 6], 2⟩] := hf
    simp only [List.mem_cons, List.not_mem_nil, or_false] at hf
    rcases hf with rfl | rfl <;> fin_cases k <;> simp [wallS]
  magnetic := fun _ _ => rfl
  pol := fun _ _ => rfl

theorem wall_material : ∀ t ∈ wallD.tets, Material wallD.c (wallD.vol t.reg) := fun _ _ =>
  ⟨one_ne_zero, zero_lt_one, zero_lt_one, one_ne_zero⟩

theorem wall_flow : ∀ f ∈ wallD.tris, (∀ k, wallS (f.ind k)) ∨ ∀ a, flow wallD.c (wallD.surf f.reg) a = 0 := by
  intro f hf
  left
  intro k
  have hf : f ∈ [(⟨![0, 2, 1], 1⟩ : Tri), ⟨![4, 5, 6], 2⟩] := hf
  simp only [List.mem_cons, List.not_mem_nil, or_false] at hf
  rcases hf with rfl | rfl <;> fin_cases k <;> simp [wallS]

theorem wall_field : FieldOf wallD.p wallD.tets wallN wallM := by
  intro t ht a l l0 l1
  have ht : t ∈ [wallLow, wallUp] := ht
  simp only [List.mem_cons, List.not_mem_nil, or_false] at ht
  show (wallM (∑ i, l i * nod4 wallP t i)).comp a = _
  rw [Fin.sum_univ_four] at l1
  have p0 := l0 0
  have p1 := l0 1
  have p2 := l0 2
  rcases ht with rfl | rfl
  · have z : (∑ i, l i * nod4 wallP wallLow i).z = -(l 0 + l 1 + l 2) := by
      simp [Fin.sum_univ_four, nod4, wallP, wallLow]
      ring
    have zz : |(∑ i, l i * nod4 wallP wallLow i).z| = l 0 + l 1 + l 2 := by
      rw [z, abs_neg, abs_of_nonneg (by linarith)]
    unfold wallM
    rw [zz, z]
    fin_cases a <;> simp [V3.comp, comp4, wallN, wallLow, Fin.sum_univ_four] <;> linarith
  · have z : (∑ i, l i * nod4 wallP wallUp i).z = l 0 + l 1 + l 2 := by
      simp [Fin.sum_univ_four, nod4, wallP, wallUp]
    have zz : |(∑ i, l i * nod4 wallP wallUp i).z| = l 0 + l 1 + l 2 := by
      rw [z, abs_of_nonneg (by linarith)]
    unfold wallM
    rw [zz, z]
    fin_cases a <;> simp [V3.comp, comp4, wallN, wallUp, Fin.sum_univ_four] <;> linarith

/-- the hat function of the middle node, along x -/
def wallW (i : ℕ) : V3 := if i = 3 then ⟨1, 0, 0⟩ else 0

theorem wall_source : spinSource wallD wallM wallW = 3 / 8 := by
  rw [spinSource_eq wall_problem.oriented wall_field]
  show (if _ then (1 * (1 / 2) * 1 / 1 : ℝ) * tetVolume (nod4 wallP wallLow) * ∑ i : Fin 4,
      (gradV (nod4 wallP wallLow) (nod4 (fun i => (wallP i).z) wallLow)).dot (daRow (nod4 wallP wallLow) i) *
        (wallW (wallLow.ind i)).dot (mean4 (nod4 wallN wallLow)) else 0) +
    ((if _ then (1 * (1 / 2) * 1 / 1 : ℝ) * tetVolume (nod4 wallP wallUp) * ∑ i : Fin 4,
      (gradV (nod4 wallP wallUp) (nod4 (fun i => (wallP i).z) wallUp)).dot (daRow (nod4 wallP wallUp) i) *
        (wallW (wallUp.ind i)).dot (mean4 (nod4 wallN wallUp)) else 0) + 0) = _
  rw [if_pos (show Tet.isMagnetic wallD.mag wallLow = true from rfl), if_pos (show Tet.isMagnetic wallD.mag wallUp = true from rfl),
    wall_gradV.1, wall_gradV.2, wall_volume.1, wall_volume.2]
  simp only [wall_da.1, wall_da.2, Fin.sum_univ_four, mean4]
  simp [nod4, wallLow, wallUp, wallN, wallW, V3.dot]
  norm_num

open Classical in
theorem wall_checks : checkV [wallSurf 1, wallSurf 2] = true ∧
    checkS [⟨"__default__", 1, 1, .fin 1, .fin (1 / 2), 1, 1⟩, wallVol] [wallSurf 1, wallSurf 2] = true := by
  have e1 : wallSurf 1 = ⟨"electrode", .nan, .fin (-1), fun _ => .nan, fun _ => .fin 0⟩ := if_pos rfl
  have e2 : wallSurf 2 = ⟨"entry", .fin (-1 / 3), .nan, fun _ => .fin 0, fun _ => .nan⟩ := if_neg (by norm_num)
  have fn : decide (Fl.IsFin .nan) = false := decide_eq_false id
  have ff : ∀ x : ℝ, decide (Fl.IsFin (.fin x)) = true := fun x => decide_eq_true trivial
  have s1 : decide (norm3 fun _ => .fin 0).IsFin = true := decide_eq_true ((norm3_isFin _).mpr fun _ => trivial)
  have s2 : decide (norm3 fun _ => .nan).IsFin = false := decide_eq_false fun h => (norm3_isFin _).mp h 0
  have n0 : decide (Fl.IsFin (.fin 1) ∧ Fl.val (.fin 1) ≠ 0) = true := decide_eq_true ⟨trivial, one_ne_zero⟩
  have p0 : decide (Fl.IsFin (.fin (1 / 2)) ∧ 0 ≤ Fl.val (.fin (1 / 2)) ∧ Fl.val (.fin (1 / 2)) < 1) = true :=
    decide_eq_true ⟨trivial, by show (0 : ℝ) ≤ 1 / 2; norm_num, by show (1 / 2 : ℝ) < 1; norm_num⟩
  constructor
  · simp only [checkV, e1, e2, List.countP_cons, List.countP_nil, fn, ff]
    rfl
  · simp only [checkS, e1, e2, wallVol, List.countP_cons, List.countP_nil, fn, ff, s1, s2, n0, p0]
    decide

/-- **C102** fails: a wall crossed by a current, in settings that pass all checks. The exact source at the node in the middle of the wall
is not zero; the program assembles zero there, finds no accumulation at all and exerts no torque, while no accumulation
that vanishes everywhere satisfies the exact equations. -/
theorem C102_negation : ∃ (d : SpinData) (nod : ℕ) (n : ℕ → V3) (M : V3 → V3) (SV S : ℕ → Prop),
    SpinProblem Tetra.rule5 TriElem.rule4 nod d ∧ (∀ t ∈ d.tets, Material d.c (d.vol t.reg)) ∧ Wire d SV S (1 / 2) ∧
    FieldOf d.p d.tets n M ∧ (∀ i, (n i).norm = 1) ∧
    checkV [wallSurf 1, wallSurf 2] = true ∧ checkS [⟨"__default__", 1, 1, .fin 1, .fin (1 / 2), 1, 1⟩, wallVol] [wallSurf 1, wallSurf 2] = true ∧
    (∃ w : ℕ → V3, (∀ i, S i → w i = 0) ∧ spinSource d M w ≠ 0 ∧
      ∑ r ∈ Finset.range (3 * nod), flat w r * volRhs Tetra.rule5 d ⟨n, n⟩ r = 0) ∧
    (∃ sys, (SpinSys.new nod d.tets).history Tetra.rule5 TriElem.rule4 d.c d.p d.mag d.vol d.surf d.V d.tets d.tris [⟨n, n⟩] = some sys ∧
      ∀ x : ℕ → V3, sys.Solved nod S x → (∀ i, S i → x i = 0) → ∀ i, i < nod → x i = 0) ∧
    ∀ x : ℕ → V3, (∀ w : ℕ → V3, (∀ i, S i → w i = 0) → spinWeak (unpolarized d) n n w x = spinSource d M w) → ∃ i, i < nod ∧ x i ≠ 0 := by
  refine ⟨wallD, 7, wallN, wallM, (· ≤ 2), wallS, wall_problem, wall_material, wall_wire, wall_field, ?_, ?_, ?_, ?_, ?_, ?_⟩
  · intro i
    unfold wallN
    split_ifs <;> simp [V3.norm, V3.nsq]
  · exact wall_checks.1
  · exact wall_checks.2
  · have hw : ∀ i, wallS i → wallW i = 0 := fun i hi => if_neg hi
    refine ⟨wallW, hw, by rw [wall_source]; norm_num, ?_⟩
    rw [volRhs_form wall_problem]
    exact wall_wire.zero wall_problem.oriented hw _
  · obtain ⟨sys, h1, h2⟩ := C102_no_accumulation wall_problem wall_material wall_wire wall_flow [⟨wallN, wallN⟩] (by simp)
    refine ⟨sys, h1, fun x hx hx0 i _ => ?_⟩
    by_cases hi : i = 3
    · rw [hi]
      exact h2 x hx hx0 wallLow (by simp [wallD]) 3
    · exact hx0 i hi
  · intro x hx
    by_contra hcon
    push Not at hcon
    have e := hx wallW fun i hi => if_neg hi
    rw [wall_source, spinWeak_zero] at e
    · norm_num at e
    · intro t ht k
      exact hcon _ (wall_problem.valid t ht k)
    · intro f hf k
      refine if_neg ?_
      have hf : f ∈ [(⟨![0, 2, 1], 1⟩ : Tri), ⟨![4, 5, 6], 2⟩] := hf
      simp only [List.mem_cons, List.not_mem_nil, or_false] at hf
      rcases hf with rfl | rfl <;> fin_cases k <;> simp

/-! ## the hypotheses hold on the wall -/

example (w : ℕ → V3) := C102_difference wall_problem ⟨wallN, wallN⟩ wall_field w

/-- the magnetization of a domain: uniform -/
example (u : V3) (w : ℕ → V3) := C102_source_partial wall_problem ⟨fun _ => u, fun _ => u⟩ (M := fun _ => u) (by
  intro t _ a l _ l1
  show u.comp a = ∑ i, l i * u.comp a
  rw [← Finset.sum_mul, l1, one_mul]) (fun _ _ _ _ _ => rfl) w

theorem wall_regular : ∀ t ∈ wallD.tets, Regular 3 54 (nod4 wallD.p t) := by
  intro t ht
  have ht : t ∈ [wallLow, wallUp] := ht
  simp only [List.mem_cons, List.not_mem_nil, or_false] at ht
  rcases ht with rfl | rfl
  · refine ⟨fun i j => norm_le (by norm_num) ?_, ?_⟩
    · show (nod4 wallP wallLow i - nod4 wallP wallLow j).nsq ≤ _
      fin_cases i <;> fin_cases j <;> norm_num [nod4, wallLow, wallP, V3.nsq]
    · show _ ≤ _ * tetVolume (nod4 wallP wallLow)
      rw [wall_volume.1]
      norm_num
  · refine ⟨fun i j => norm_le (by norm_num) ?_, ?_⟩
    · show (nod4 wallP wallUp i - nod4 wallP wallUp j).nsq ≤ _
      fin_cases i <;> fin_cases j <;> norm_num [nod4, wallUp, wallP, V3.nsq]
    · show _ ≤ _ * tetVolume (nod4 wallP wallUp)
      rw [wall_volume.2]
      norm_num

example := C102_missing wall_problem ⟨wallN, wallN⟩ wall_field wallW (h := 3) (κ := 54) (A := 1) (B := 1) (g := 1) (by norm_num) wall_regular (by
    intro t ht
    have ht : t ∈ [wallLow, wallUp] := ht
    simp only [List.mem_cons, List.not_mem_nil, or_false] at ht
    rcases ht with rfl | rfl
    · show (gradV (nod4 wallP wallLow) (nod4 (fun i => (wallP i).z) wallLow)).norm ≤ 1
      rw [wall_gradV.1]
      simp [V3.norm, V3.nsq]
    · show (gradV (nod4 wallP wallUp) (nod4 (fun i => (wallP i).z) wallUp)).norm ≤ 1
      rw [wall_gradV.2]
      simp [V3.norm, V3.nsq]) (by
    intro t _ i k
    refine norm_le (by norm_num) ?_
    unfold wallW
    split_ifs <;> norm_num [V3.nsq]) (by
    intro t _ i k
    refine norm_le (by norm_num) ?_
    show (wallN (t.ind i) - wallN (t.ind k)).nsq ≤ _
    unfold wallN
    split_ifs <;> norm_num [V3.nsq])

/-- the missing term is not zero -/
example : turning wallD wallN wallW = -1 / 8 := by
  show (if _ then (1 * (1 / 2) * 1 / 1 : ℝ) * tetVolume (nod4 wallP wallLow) * (mean4 (nod4 wallW wallLow)).dot
      (along wallP wallLow (gradV (nod4 wallP wallLow) (nod4 (fun i => (wallP i).z) wallLow)) wallN) else 0) +
    ((if _ then (1 * (1 / 2) * 1 / 1 : ℝ) * tetVolume (nod4 wallP wallUp) * (mean4 (nod4 wallW wallUp)).dot
      (along wallP wallUp (gradV (nod4 wallP wallUp) (nod4 (fun i => (wallP i).z) wallUp)) wallN) else 0) + 0) = _
  rw [if_pos (show Tet.isMagnetic wallD.mag wallLow = true from rfl), if_pos (show Tet.isMagnetic wallD.mag wallUp = true from rfl),
    wall_gradV.1, wall_gradV.2, wall_volume.1, wall_volume.2]
  simp only [along, dot_gradV, wall_da.1, wall_da.2, Fin.sum_univ_four, mean4]
  simp [nod4, comp4, wallLow, wallUp, wallN, wallW, V3.dot, V3.comp]
  norm_num

example (s : MagState) (a : Fin 3) := C102_vanishes wall_problem wall_wire.current (i := 3) (by norm_num) (by norm_num) (by
    intro f hf hk
    have hf : f ∈ [(⟨![0, 2, 1], 1⟩ : Tri), ⟨![4, 5, 6], 2⟩] := hf
    simp only [List.mem_cons, List.not_mem_nil, or_false] at hf
    obtain ⟨k, hk⟩ := hk
    rcases hf with rfl | rfl <;> fin_cases k <;> simp at hk) (P := 1 / 2) (fun _ _ _ => ⟨rfl, rfl⟩) s a

example (hs : List MagState) := C102_ignored wall_problem wall_wire hs

example (s s' : MagState) := C102_no_torque wall_problem wall_material wall_wire wall_flow [s, s'] (by simp)

end Verif.Continuum
