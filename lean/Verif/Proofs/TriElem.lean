import Mathlib.Tactic.FinCases
import Mathlib.Tactic.NormNum
import Verif.Model.TriElem

/-!
# Lemmas on the computations on a triangle
-/

namespace Verif.TriElem

/-- what most results need from the integration rule; both compiled rules satisfy it -/
structure Rule.Ok (G : Rule) : Prop where
  sum : ∑ j, G.pds j = 1 / 2
  hat : ∀ i, ∑ j, G.a i j * G.pds j = 1 / 6

theorem rule1_sum (f : Fin rule1.n → ℝ) : ∑ j, f j = f (0 : Fin 1) := Fin.sum_univ_one (f : Fin 1 → ℝ)

theorem rule1_a (i : Fin 3) : rule1.a i (0 : Fin 1) = 1 / 3 := by
  have e : rule1.a i (0 : Fin 1) = ![(1 : ℝ) - 1 / 3 - 1 / 3, 1 / 3, 1 / 3] i := rfl
  rw [e]
  fin_cases i <;> norm_num

theorem rule1_ok : rule1.Ok := by
  have hp : rule1.pds (0 : Fin 1) = 1 / 2 := rfl
  constructor
  · rw [rule1_sum, hp]
  · intro i
    rw [rule1_sum, hp, rule1_a]
    norm_num

theorem rule4_sum_pds (f : Fin rule4.n → ℝ) :
    ∑ j, rule4.pds j * f j = -27 / 96 * f (0 : Fin 4)
      + 25 / 96 * (f (1 : Fin 4) + f (2 : Fin 4) + f (3 : Fin 4)) := by
  have h : ∑ j, rule4.pds j * f j = _ := Fin.sum_univ_four (fun j : Fin 4 => rule4.pds j * f j)
  rw [h]
  have e0 : rule4.pds (0 : Fin 4) = -27 / 96 := rfl
  have e1 : rule4.pds (1 : Fin 4) = 25 / 96 := rfl
  have e2 : rule4.pds (2 : Fin 4) = 25 / 96 := rfl
  have e3 : rule4.pds (3 : Fin 4) = 25 / 96 := rfl
  rw [e0, e1, e2, e3]
  ring

theorem rule4_a0 (i : Fin 3) : rule4.a i (0 : Fin 4) = ![(1 / 3 : ℝ), 1 / 3, 1 / 3] i := by
  have e : rule4.a i (0 : Fin 4) = ![(1 : ℝ) - 1 / 3 - 1 / 3, 1 / 3, 1 / 3] i := rfl
  rw [e]; fin_cases i <;> norm_num
theorem rule4_a1 (i : Fin 3) : rule4.a i (1 : Fin 4) = ![(3 / 5 : ℝ), 1 / 5, 1 / 5] i := by
  have e : rule4.a i (1 : Fin 4) = ![(1 : ℝ) - 1 / 5 - 1 / 5, 1 / 5, 1 / 5] i := rfl
  rw [e]; fin_cases i <;> norm_num
theorem rule4_a2 (i : Fin 3) : rule4.a i (2 : Fin 4) = ![(1 / 5 : ℝ), 3 / 5, 1 / 5] i := by
  have e : rule4.a i (2 : Fin 4) = ![(1 : ℝ) - 3 / 5 - 1 / 5, 3 / 5, 1 / 5] i := rfl
  rw [e]; fin_cases i <;> norm_num
theorem rule4_a3 (i : Fin 3) : rule4.a i (3 : Fin 4) = ![(1 / 5 : ℝ), 1 / 5, 3 / 5] i := by
  have e : rule4.a i (3 : Fin 4) = ![(1 : ℝ) - 1 / 5 - 3 / 5, 1 / 5, 3 / 5] i := rfl
  rw [e]; fin_cases i <;> norm_num

theorem rule4_ok : rule4.Ok := by
  constructor
  · have := rule4_sum_pds (fun _ => 1)
    simp only [mul_one] at this
    rw [this]
    norm_num
  · intro i
    simp only [mul_comm (rule4.a _ _)]
    rw [rule4_sum_pds, rule4_a0, rule4_a1, rule4_a2, rule4_a3]
    fin_cases i <;> norm_num

theorem Rule.a_sum (G : Rule) (j : Fin G.n) : ∑ i, G.a i j = 1 := by
  simp [Fin.sum_univ_three, Rule.a]
  ring

theorem sum_weight {G : Rule} (hG : G.Ok) (p : Fin 3 → V3) : ∑ j, weight G p j = surf p := by
  unfold weight
  rw [← Finset.mul_sum, hG.sum]
  ring

/-- integral of an interpolated quantity: area times mean of the nodal values -/
theorem sum_weight_interpS {G : Rule} (hG : G.Ok) (p : Fin 3 → V3) (f : Fin 3 → ℝ) :
    ∑ j, weight G p j * interpS G f j = surf p * ((∑ i, f i) / 3) := by
  have : ∑ j, weight G p j * interpS G f j = ∑ i, f i * (2 * surf p) * ∑ j, G.a i j * G.pds j := by
    simp only [interpS, weight, Finset.mul_sum]
    rw [Finset.sum_comm]
    exact Finset.sum_congr rfl fun i _ => Finset.sum_congr rfl fun j _ => by ring
  rw [this]
  simp only [hG.hat]
  rw [← Finset.sum_mul, ← Finset.sum_mul]
  ring

/-- scalar product with an interpolated vector -/
theorem interpV_dot (G : Rule) (k : V3) (u : Fin 3 → V3) (j : Fin G.n) :
    (interpV G u j).dot k = interpS G (fun i => (u i).dot k) j := by
  simp only [interpV, interpS, V3.dot, V3.add_x, V3.add_y, V3.add_z, V3.smul_x, V3.smul_y, V3.smul_z, Fin.sum_univ_three]
  ring

/-- twice the surface times the unit normal is the normal vector -/
theorem surf_normal (p : Fin 3 → V3) : (2 * surf p) * unitNormal p = normalVect p := by
  unfold surf unitNormal V3.normalize V3.norm
  by_cases h : 0 < (normalVect p).nsq
  · rw [if_pos h]
    have hs : Real.sqrt (normalVect p).nsq ≠ 0 := (Real.sqrt_pos.mpr h).ne'
    ext <;> simp <;> field_simp
  · rw [if_neg h]
    have h0 : (normalVect p).nsq = 0 := by
      apply le_antisymm (not_lt.mp h)
      unfold V3.nsq
      nlinarith [mul_self_nonneg (normalVect p).x, mul_self_nonneg (normalVect p).y, mul_self_nonneg (normalVect p).z]
    have hx : (normalVect p).x = 0 := by
      unfold V3.nsq at h0
      exact mul_self_eq_zero.mp (by nlinarith [mul_self_nonneg (normalVect p).x, mul_self_nonneg (normalVect p).y, mul_self_nonneg (normalVect p).z])
    have hy : (normalVect p).y = 0 := by
      unfold V3.nsq at h0
      exact mul_self_eq_zero.mp (by nlinarith [mul_self_nonneg (normalVect p).x, mul_self_nonneg (normalVect p).y, mul_self_nonneg (normalVect p).z])
    have hz : (normalVect p).z = 0 := by
      unfold V3.nsq at h0
      exact mul_self_eq_zero.mp (by nlinarith [mul_self_nonneg (normalVect p).x, mul_self_nonneg (normalVect p).y, mul_self_nonneg (normalVect p).z])
    ext <;> simp [hx, hy, hz]

theorem surf_nonneg (p : Fin 3 → V3) : 0 ≤ surf p := by
  unfold surf V3.norm
  positivity

/-- total charge of a triangle -/
theorem charges_sum {G : Rule} (hG : G.Ok) (dMs : ℝ) (p u : Fin 3 → V3) :
    ∑ j, charges G dMs p u j = dMs * (((u 0 + u 1 + u 2).dot (normalVect p)) / 6) := by
  have e : ∀ j, charges G dMs p u j = dMs * (weight G p j * interpS G (fun i => (u i).dot (unitNormal p)) j) := by
    intro j
    unfold charges
    split_ifs with h
    · rw [interpV_dot]
    · rw [not_not] at h
      rw [h]
      ring
  simp only [e]
  rw [← Finset.mul_sum, sum_weight_interpS hG, ← surf_normal p, Fin.sum_univ_three]
  simp only [V3.dot, V3.add_x, V3.add_y, V3.add_z, V3.smul_x, V3.smul_y, V3.smul_z]
  ring

/-- exactness on products of two hat functions, for the four point rule -/
theorem rule4_hat2 (i k : Fin 3) : ∑ j, rule4.pds j * (rule4.a i j * rule4.a k j) = if i = k then 1 / 12 else 1 / 24 := by
  rw [rule4_sum_pds]
  simp only [rule4_a0, rule4_a1, rule4_a2, rule4_a3]
  fin_cases i <;> fin_cases k <;> norm_num

end Verif.TriElem
