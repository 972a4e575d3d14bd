import Verif.Props.LlgElem
import Verif.Proofs.Electro
import Verif.Model.LlgSolve
import Verif.Spec.LlgSolve
import Mathlib.Algebra.Order.BigOperators.Ring.Finset

/-!
# Lemmas on the error left by the iterative solver in a time step
-/

namespace Verif.LlgSolve

open Verif.Mesh Verif.Assembly Verif.Tetra Verif.SparseMat Verif.Llg

theorem mem_lvd {n : ℕ} (magN : List Bool) (r : Fin (2 * n)) : r ∈ lvd n magN ↔ magN.getD (r / 2) false = false := by
  unfold lvd
  rw [List.mem_filterMap]
  constructor
  · rintro ⟨q, hq, e⟩
    split_ifs at e with h
    · obtain ⟨-, h2⟩ := (Assembly.mem_lvd magN n q).mp hq
      have : (r : ℕ) = q := by rw [← Option.some.inj e]
      rw [this]
      exact h2
  · intro h
    refine ⟨r, (Assembly.mem_lvd magN n r).mpr ⟨by omega, h⟩, ?_⟩
    rw [dif_pos r.2]

/-- lower bound of the damping term on the diagonal -/
theorem contrib_ge {G : Rule} (hG : Compiled G) (p : Fin 4 → V3) (hp : 0 < detJ p) (aeff : Fin G.n → ℝ) (alpha : ℝ)
    (ha : 0 < alpha) (h : ∀ j, alpha / 1.1 ≤ aeff j ∧ aeff j ≤ 1.1 * alpha) (i : Fin 4) :
    3 / 4 * (alpha * calcVol G p / 4) ≤ contrib G p aeff i := by
  have e : contrib G p aeff i = detJ p * ∑ j, G.pds j * (G.a i j * aeff j) := by
    unfold contrib weight
    rw [Finset.mul_sum]
    exact Finset.sum_congr rfl fun j _ => by ring
  rw [e, calcVol_eq hG.ok]
  have e2 : 3 / 4 * (alpha * (detJ p / 6) / 4) = detJ p * (alpha / 32) := by ring
  rw [e2]
  apply mul_le_mul_of_nonneg_left _ hp.le
  rcases hG with rfl | rfl
  · have hs : ∀ f : Fin rule1.n → ℝ, ∑ j, f j = f (0 : Fin 1) := fun f => Fin.sum_univ_one (f : Fin 1 → ℝ)
    have hp : rule1.pds (0 : Fin 1) = 1 / 6 := rfl
    have ha' : rule1.a i (0 : Fin 1) = 1 / 4 := by
      have e : rule1.a i (0 : Fin 1) = ![(1 : ℝ) - 1 / 4 - 1 / 4 - 1 / 4, 1 / 4, 1 / 4, 1 / 4] i := rfl
      rw [e]
      fin_cases i <;> norm_num
    rw [hs, hp, ha']
    have h1 := (h (0 : Fin 1)).1
    have e : alpha / 1.1 = 10 / 11 * alpha := by ring
    rw [e] at h1
    linarith
  · rw [rule5_sum_pds, rule5_a0, rule5_a1, rule5_a2, rule5_a3, rule5_a4]
    have h0 := (h (0 : Fin 5)).2
    have h1 := (h (1 : Fin 5)).1
    have h2 := (h (2 : Fin 5)).1
    have h3 := (h (3 : Fin 5)).1
    have h4 := (h (4 : Fin 5)).1
    have e : alpha / 1.1 = 10 / 11 * alpha := by ring
    rw [e] at h1 h2 h3 h4
    norm_num at h0
    fin_cases i <;> norm_num <;> linarith

section
variable {G : Rule} {prm : ℕ → Prm} {s : Step} {mag : ℕ → Bool} {nod : ℕ} {tets : List Tet} {nodes : ℕ → Node}

/-- the form of an element is at least the damping of its nodes -/
theorem elem_form_ge (h : TimeStep G prm s mag nod tets nodes) (Hext Hst : Tet → Fin G.n → V3)
    (dir : Option (Fin 3)) (V : ℝ) (t : Tet) (ht : t ∈ magTet mag tets) (z : ℕ → ℝ) :
    3 / 4 * ∑ k, (prm t.reg).alpha * calcVol G (nodalOf nodes t).p / 4 * (z (2 * t.ind k) ^ 2 + z (2 * t.ind k + 1) ^ 2) ≤
    ∑ r ∈ Finset.range (2 * nod), ∑ c ∈ Finset.range (2 * nod),
        z (other r) * (tetElem G prm s nodes Hext Hst dir V t).contribution 2 r c * z c := by
  have ht1 := (List.mem_filter.mp ht).1
  obtain ⟨aeff, ha, e⟩ := elem_form G prm s nodes Hext Hst dir V t nod (h.valid t ht1) z
  rw [e]
  dsimp only
  have hdet : 0 < detJ (nodalOf nodes t).p := h.oriented t ht1
  have hc : ∀ i, 3 / 4 * ((prm t.reg).alpha * calcVol G (nodalOf nodes t).p / 4) ≤ contrib G (nodalOf nodes t).p aeff i := by
    refine contrib_ge h.rule _ hdet aeff _ (h.alpha t ht) fun j => ?_
    obtain ⟨x, hx⟩ := ha j
    rw [hx]
    exact C38_bounds _ _ _ _ h.gamma0 h.dt (h.alpha t ht)
  have hv : 0 < calcVol G (nodalOf nodes t).p := by
    rw [calcVol_eq h.rule.ok]
    positivity
  have hpref : 0 < s.prefactor := by
    obtain ⟨dm, h1, h2⟩ := h.pref
    rw [h2]
    exact prefactor_pos h1 h.dt
  have hcoef : 0 ≤ s.prefactor * sdt s * abis (prm t.reg) s * calcVol G (nodalOf nodes t).p := by
    have h1 : 0 ≤ sdt s := mul_nonneg (mul_nonneg h.theta h.dt.le) h.gamma0.le
    have h2 : 0 ≤ abis (prm t.reg) s :=
      div_nonneg (mul_nonneg (by norm_num) (h.exchange t ht)) (mul_nonneg h.mu0.le (h.magnetic t ht).le)
    positivity
  have hw : ∀ w : Fin 4 → V3, 0 ≤ (Tetra.deriv (nodalOf nodes t).p 0 w).nsq + (Tetra.deriv (nodalOf nodes t).p 1 w).nsq
      + (Tetra.deriv (nodalOf nodes t).p 2 w).nsq := fun w =>
    add_nonneg (add_nonneg (nsq_nonneg _) (nsq_nonneg _)) (nsq_nonneg _)
  have hn : ∀ k, (vec (nodalOf nodes t).ep (nodalOf nodes t).eq (fun a i => z (2 * t.ind i + a)) k).nsq =
      z (2 * t.ind k) ^ 2 + z (2 * t.ind k + 1) ^ 2 := by
    intro k
    obtain ⟨-, b1, c1, -, bc, -, -⟩ := h.ortho ht k
    have : vec (nodalOf nodes t).ep (nodalOf nodes t).eq (fun a i => z (2 * t.ind i + a)) k =
      z (2 * t.ind k) * (nodes (t.ind k)).ep + z (2 * t.ind k + 1) * (nodes (t.ind k)).eq := rfl
    rw [this]
    generalize (nodes (t.ind k)).ep = ep at b1 bc
    generalize (nodes (t.ind k)).eq = eq at c1 bc
    simp only [V3.nsq, V3.dot, V3.add_x, V3.add_y, V3.add_z, V3.smul_x, V3.smul_y, V3.smul_z] at b1 c1 bc ⊢
    linear_combination z (2 * t.ind k) ^ 2 * b1 + z (2 * t.ind k + 1) ^ 2 * c1
      + 2 * z (2 * t.ind k) * z (2 * t.ind k + 1) * bc
  simp only [hn]
  have h2 := mul_nonneg hcoef (hw (vec (nodalOf nodes t).ep (nodalOf nodes t).eq (fun a i => z (2 * t.ind i + a))))
  refine le_trans ?_ (le_add_of_nonneg_right h2)
  rw [Finset.mul_sum]
  refine Finset.sum_le_sum fun k _ => ?_
  rw [← mul_assoc]
  exact mul_le_mul_of_nonneg_right (hc k) (by positivity)

/-- the forms of the elements add up to the form of the system on the magnetic rows -/
theorem form_sum (Hext Hst : Tet → Fin G.n → V3) (dir : Option (Fin 3)) (V : ℝ) (z : ℕ → ℝ) :
    ((magTet mag tets).map fun t => ∑ r ∈ Finset.range (2 * nod), ∑ c ∈ Finset.range (2 * nod),
      z (other r) * (tetElem G prm s nodes Hext Hst dir V t).contribution 2 r c * z c).sum =
    ∑ r ∈ Finset.range (2 * nod), if (magNode mag nod tets).getD (r / 2) false = false then 0 else
      z (other r) * ∑ c ∈ Finset.range (2 * nod), coef G prm s mag nod tets nodes Hext Hst dir V r c * z c := by
  rw [← sum_list_comm]
  refine Finset.sum_congr rfl fun r hr => ?_
  have hr := Finset.mem_range.mp hr
  rw [← sum_list_comm]
  split_ifs with hm
  · apply Finset.sum_eq_zero
    intro c _
    apply List.sum_eq_zero
    intro x hx
    obtain ⟨t, ht, rfl⟩ := List.mem_map.mp hx
    obtain ⟨ht1, ht2⟩ := List.mem_filter.mp ht
    rw [contribution_zero]
    · ring
    · intro k hk
      have : (magNode mag nod tets).getD (r / 2) false = true :=
        (magNode_iff mag nod tets _ (by omega)).mpr ⟨t, ht1, ht2, k, hk⟩
      rw [hm] at this
      simp at this
  · have e : ∀ c, ((magTet mag tets).map fun t =>
        z (other r) * (tetElem G prm s nodes Hext Hst dir V t).contribution 2 r c * z c).sum =
        z (other r) * (coef G prm s mag nod tets nodes Hext Hst dir V r c * z c) := by
      intro c
      unfold coef
      rw [if_neg (fun h => hm h.2), List.sum_map_mul_right, List.sum_map_mul_left]
      ring
    simp only [e]
    rw [← Finset.mul_sum]

theorem lumped_sum (hv : IndicesValid nod tets) (p : ℕ → V3) (g : ℕ → ℝ) :
    ((magTet mag tets).map fun t => ∑ k, (prm t.reg).alpha * MeshElem.tetVol G p t / 4 * g (t.ind k)).sum =
      ∑ i ∈ Finset.range nod, lumpedDamping G prm mag tets p i * g i := by
  unfold lumpedDamping
  simp only [← List.sum_map_mul_right]
  rw [sum_list_comm]
  congr 1
  refine List.map_congr_left fun t ht => ?_
  simp only [Finset.sum_mul]
  rw [Finset.sum_comm]
  refine Finset.sum_congr rfl fun k _ => ?_
  have hk := hv t (List.mem_filter.mp ht).1 k
  simp only [ite_mul, zero_mul, Finset.sum_ite_eq, Finset.mem_range, hk, if_true]

theorem sum_pairs (n : ℕ) (f : ℕ → ℝ) :
    ∑ r ∈ Finset.range (2 * n), f r = ∑ i ∈ Finset.range n, (f (2 * i) + f (2 * i + 1)) := by
  induction n with
  | zero => simp
  | succ n ih =>
    rw [show 2 * (n + 1) = 2 * n + 1 + 1 by ring, Finset.sum_range_succ, Finset.sum_range_succ, ih, Finset.sum_range_succ]
    ring

/-- sum of squares over the unknowns of the magnetic nodes -/
noncomputable def magSq (magN : List Bool) (nod : ℕ) (z : ℕ → ℝ) : ℝ :=
  ∑ r ∈ Finset.range (2 * nod), if magN.getD (r / 2) false = false then 0 else z r ^ 2

theorem magSq_nonneg (magN : List Bool) (z : ℕ → ℝ) : 0 ≤ magSq magN nod z :=
  Finset.sum_nonneg fun r _ => by split_ifs <;> positivity

theorem magSq_pairs (magN : List Bool) (z : ℕ → ℝ) : magSq magN nod z =
    ∑ i ∈ Finset.range nod, if magN.getD i false = false then 0 else z (2 * i) ^ 2 + z (2 * i + 1) ^ 2 := by
  unfold magSq
  rw [sum_pairs]
  refine Finset.sum_congr rfl fun i _ => ?_
  rw [show 2 * i / 2 = i by omega, show (2 * i + 1) / 2 = i by omega]
  split_ifs <;> ring

theorem other_even (i : ℕ) : other (2 * i) = 2 * i + 1 := by
  unfold other
  rw [if_pos (by omega)]

theorem other_odd (i : ℕ) : other (2 * i + 1) = 2 * i := by
  unfold other
  rw [if_neg (by omega)]
  omega

theorem magSq_other (magN : List Bool) (z : ℕ → ℝ) : magSq magN nod (fun r => z (other r)) = magSq magN nod z := by
  rw [magSq_pairs, magSq_pairs]
  refine Finset.sum_congr rfl fun i _ => ?_
  simp only [other_even, other_odd]
  split_ifs <;> ring

/-- the error is bounded by the residual -/
theorem error_le (h : TimeStep G prm s mag nod tets nodes) (Hext Hst : Tet → Fin G.n → V3) (dir : Option (Fin 3)) (V : ℝ)
    (z : ℕ → ℝ) (m e : ℝ) (hm : 0 < m) (he : 0 ≤ e)
    (hmass : ∀ i, i < nod → (magNode mag nod tets).getD i false = true →
      m ≤ lumpedDamping G prm mag tets (fun i => (nodes i).p) i)
    (hz : ∀ r, r < 2 * nod → (magNode mag nod tets).getD (r / 2) false = false → z r = 0)
    (hres : Real.sqrt (magSq (magNode mag nod tets) nod fun r =>
      ∑ c ∈ Finset.range (2 * nod), coef G prm s mag nod tets nodes Hext Hst dir V r c * z c) ≤ e) :
    Real.sqrt (magSq (magNode mag nod tets) nod z) ≤ 4 / 3 * e / m := by
  set magN := magNode mag nod tets with hmagN
  set y : ℕ → ℝ := fun r => ∑ c ∈ Finset.range (2 * nod), coef G prm s mag nod tets nodes Hext Hst dir V r c * z c with hy
  have h1 : 3 / 4 * (m * magSq magN nod z) ≤ ∑ r ∈ Finset.range (2 * nod), if magN.getD (r / 2) false = false then 0 else
      z (other r) * y r := by
    rw [hy, hmagN, ← form_sum]
    have l1 : 3 / 4 * ((magTet mag tets).map fun t => ∑ k, (prm t.reg).alpha * MeshElem.tetVol G (fun i => (nodes i).p) t / 4 *
        (z (2 * t.ind k) ^ 2 + z (2 * t.ind k + 1) ^ 2)).sum ≤
        ((magTet mag tets).map fun t => ∑ r ∈ Finset.range (2 * nod), ∑ c ∈ Finset.range (2 * nod),
          z (other r) * (tetElem G prm s nodes Hext Hst dir V t).contribution 2 r c * z c).sum := by
      rw [← List.sum_map_mul_left]
      exact List.sum_le_sum fun t ht => elem_form_ge h Hext Hst dir V t ht z
    refine le_trans ?_ l1
    have := lumped_sum (G := G) (prm := prm) (mag := mag) h.valid (fun i => (nodes i).p) (fun i => z (2 * i) ^ 2 + z (2 * i + 1) ^ 2)
    rw [this, magSq_pairs, Finset.mul_sum]
    refine mul_le_mul_of_nonneg_left (Finset.sum_le_sum fun i hi => ?_) (by norm_num)
    have hi := Finset.mem_range.mp hi
    split_ifs with hn
    · rw [hz (2 * i) (by omega) (by rw [show 2 * i / 2 = i by omega]; exact hn),
        hz (2 * i + 1) (by omega) (by rw [show (2 * i + 1) / 2 = i by omega]; exact hn)]
      simp
    · exact mul_le_mul_of_nonneg_right (hmass i hi (by simpa using hn)) (by positivity)
  have h2 : (∑ r ∈ Finset.range (2 * nod), if magN.getD (r / 2) false = false then 0 else z (other r) * y r) ≤
      Real.sqrt (magSq magN nod z) * Real.sqrt (magSq magN nod y) := by
    rw [← Real.sqrt_mul (magSq_nonneg _ _), ← magSq_other]
    apply Real.le_sqrt_of_sq_le
    have := Finset.sum_mul_sq_le_sq_mul_sq (Finset.range (2 * nod))
      (fun r => if magN.getD (r / 2) false = false then 0 else z (other r))
      (fun r => if magN.getD (r / 2) false = false then 0 else y r)
    refine le_trans (le_of_eq ?_) (le_trans this (le_of_eq ?_))
    · congr 1
      refine Finset.sum_congr rfl fun r _ => ?_
      split_ifs <;> simp
    · unfold magSq
      congr 1
      · refine Finset.sum_congr rfl fun r _ => ?_
        split_ifs <;> simp
      · refine Finset.sum_congr rfl fun r _ => ?_
        split_ifs <;> simp
  have hS := magSq_nonneg (nod := nod) magN z
  set q := Real.sqrt (magSq magN nod z) with hq
  have hq0 : 0 ≤ q := Real.sqrt_nonneg _
  have hqq : magSq magN nod z = q * q := (Real.mul_self_sqrt hS).symm
  rw [hqq] at h1
  have h3 : 3 / 4 * (m * (q * q)) ≤ q * e := le_trans h1 (le_trans h2 (mul_le_mul_of_nonneg_left hres hq0))
  rcases hq0.lt_or_eq with hpos | h0
  · rw [le_div_iff₀ hm]
    have : q * (3 / 4 * (m * q)) ≤ q * e := by linarith
    have := le_of_mul_le_mul_left this hpos
    linarith
  · rw [← h0]
    positivity

end

end Verif.LlgSolve
