import Mathlib.LinearAlgebra.Matrix.Adjugate
import Mathlib.LinearAlgebra.Matrix.Determinant.Basic
import Mathlib.Tactic.FinCases
import Mathlib.Tactic.NormNum
import Verif.Model.Tetra

/-!
# Lemmas on the finite element computations
-/

namespace Verif.Tetra

/-! ## integration rules -/

/-- what most results need from the integration rule; both compiled rules satisfy it -/
structure Rule.Ok (G : Rule) : Prop where
  sum : ∑ j, G.pds j = 1 / 6
  hat : ∀ i, ∑ j, G.a i j * G.pds j = 1 / 24

theorem rule1_ok : rule1.Ok := by
  have h : ∀ f : Fin rule1.n → ℝ, ∑ j, f j = f (0 : Fin 1) := fun f => Fin.sum_univ_one (f : Fin 1 → ℝ)
  have hp : rule1.pds (0 : Fin 1) = 1 / 6 := rfl
  constructor
  · rw [h, hp]
  · intro i
    have ha : rule1.a i (0 : Fin 1) = 1 / 4 := by
      have e : rule1.a i (0 : Fin 1) = ![(1 : ℝ) - 1 / 4 - 1 / 4 - 1 / 4, 1 / 4, 1 / 4, 1 / 4] i := rfl
      rw [e]
      fin_cases i <;> norm_num
    rw [h, hp, ha]
    norm_num

theorem rule5_sum (f : Fin rule5.n → ℝ) :
    ∑ j, f j = f (0 : Fin 5) + f (1 : Fin 5) + f (2 : Fin 5) + f (3 : Fin 5) + f (4 : Fin 5) :=
  Fin.sum_univ_five (f : Fin 5 → ℝ)

/-- the weights and the hat functions at the five points -/
theorem rule5_sum_pds (f : Fin rule5.n → ℝ) :
    ∑ j, rule5.pds j * f j = -2 / 15 * f (0 : Fin 5)
      + 3 / 40 * (f (1 : Fin 5) + f (2 : Fin 5) + f (3 : Fin 5) + f (4 : Fin 5)) := by
  rw [rule5_sum]
  have e0 : rule5.pds (0 : Fin 5) = -2 / 15 := rfl
  have e1 : rule5.pds (1 : Fin 5) = 3 / 40 := rfl
  have e2 : rule5.pds (2 : Fin 5) = 3 / 40 := rfl
  have e3 : rule5.pds (3 : Fin 5) = 3 / 40 := rfl
  have e4 : rule5.pds (4 : Fin 5) = 3 / 40 := rfl
  rw [e0, e1, e2, e3, e4]
  ring

theorem rule5_a0 (i : Fin 4) : rule5.a i (0 : Fin 5) = ![(1 / 4 : ℝ), 1 / 4, 1 / 4, 1 / 4] i := by
  have e : rule5.a i (0 : Fin 5) = ![(1 : ℝ) - 1 / 4 - 1 / 4 - 1 / 4, 1 / 4, 1 / 4, 1 / 4] i := rfl
  rw [e]; fin_cases i <;> norm_num
theorem rule5_a1 (i : Fin 4) : rule5.a i (1 : Fin 5) = ![(1 / 2 : ℝ), 1 / 6, 1 / 6, 1 / 6] i := by
  have e : rule5.a i (1 : Fin 5) = ![(1 : ℝ) - 1 / 6 - 1 / 6 - 1 / 6, 1 / 6, 1 / 6, 1 / 6] i := rfl
  rw [e]; fin_cases i <;> norm_num
theorem rule5_a2 (i : Fin 4) : rule5.a i (2 : Fin 5) = ![(1 / 6 : ℝ), 1 / 6, 1 / 6, 1 / 2] i := by
  have e : rule5.a i (2 : Fin 5) = ![(1 : ℝ) - 1 / 6 - 1 / 6 - 1 / 2, 1 / 6, 1 / 6, 1 / 2] i := rfl
  rw [e]; fin_cases i <;> norm_num
theorem rule5_a3 (i : Fin 4) : rule5.a i (3 : Fin 5) = ![(1 / 6 : ℝ), 1 / 6, 1 / 2, 1 / 6] i := by
  have e : rule5.a i (3 : Fin 5) = ![(1 : ℝ) - 1 / 6 - 1 / 2 - 1 / 6, 1 / 6, 1 / 2, 1 / 6] i := rfl
  rw [e]; fin_cases i <;> norm_num
theorem rule5_a4 (i : Fin 4) : rule5.a i (4 : Fin 5) = ![(1 / 6 : ℝ), 1 / 2, 1 / 6, 1 / 6] i := by
  have e : rule5.a i (4 : Fin 5) = ![(1 : ℝ) - 1 / 2 - 1 / 6 - 1 / 6, 1 / 2, 1 / 6, 1 / 6] i := rfl
  rw [e]; fin_cases i <;> norm_num

theorem rule5_ok : rule5.Ok := by
  constructor
  · have := rule5_sum_pds (fun _ => 1)
    simp only [mul_one] at this
    rw [this]
    norm_num
  · intro i
    simp only [mul_comm (rule5.a _ _)]
    rw [rule5_sum_pds, rule5_a0, rule5_a1, rule5_a2, rule5_a3, rule5_a4]
    fin_cases i <;> norm_num

theorem Rule.a_sum (G : Rule) (j : Fin G.n) : ∑ i, G.a i j = 1 := by
  simp [Fin.sum_univ_four, Rule.a]
  ring

/-! ## geometry -/

/-- edge vectors -/
def ev (p : Fin 4 → V3) (k : Fin 3) : V3 := p k.succ - p 0

theorem detJ_eq (p : Fin 4 → V3) :
    detJ p = V3.dot (p 1 - p 0) (V3.cross (p 2 - p 0) (p 3 - p 0)) := by
  unfold detJ jac
  rw [Matrix.det_fin_three]
  simp [V3.dot, V3.cross]
  ring

/-- numerators of the gradients of the hat functions: `detJ p * daRow p i` -/
def gradNum (p : Fin 4 → V3) (i : Fin 4) : V3 :=
  ![-(V3.cross (p 2 - p 0) (p 3 - p 0)) - V3.cross (p 3 - p 0) (p 1 - p 0) - V3.cross (p 1 - p 0) (p 2 - p 0),
    V3.cross (p 2 - p 0) (p 3 - p 0), V3.cross (p 3 - p 0) (p 1 - p 0), V3.cross (p 1 - p 0) (p 2 - p 0)] i

theorem daRow_eq (p : Fin 4 → V3) (i : Fin 4) : daRow p i = (detJ p)⁻¹ * gradNum p i := by
  have hinv : ∀ k d, (jac p)⁻¹ k d = (detJ p)⁻¹ * (jac p).adjugate k d := by
    intro k d
    rw [Matrix.inv_def, Matrix.smul_apply, Ring.inverse_eq_inv', smul_eq_mul]
    rfl
  have hda : ∀ d, da p i d = ∑ k, dadu i k * (jac p)⁻¹ k d := fun d => Matrix.mul_apply
  unfold daRow
  rw [hda, hda, hda]
  simp only [Fin.sum_univ_three, hinv]
  unfold jac dadu
  rw [Matrix.adjugate_fin_three]
  fin_cases i <;> ext <;> simp [gradNum, V3.cross, Matrix.vecHead, Matrix.vecTail] <;> ring_nf <;> simp

theorem daRow_x (p : Fin 4 → V3) (i : Fin 4) : da p i 0 = (daRow p i).x := rfl
theorem daRow_y (p : Fin 4 → V3) (i : Fin 4) : da p i 1 = (daRow p i).y := rfl
theorem daRow_z (p : Fin 4 → V3) (i : Fin 4) : da p i 2 = (daRow p i).z := rfl

theorem daRow_sum (p : Fin 4 → V3) : ∑ i, daRow p i = 0 := by
  simp only [Fin.sum_univ_four, daRow_eq]
  ext <;> simp [gradNum] <;> ring

theorem calcVol_eq {G : Rule} (hG : G.Ok) (p : Fin 4 → V3) : calcVol G p = detJ p / 6 := by
  unfold calcVol weight
  rw [← Finset.mul_sum, hG.sum]
  ring

/-- integral of an interpolated quantity: volume times mean of the nodal values -/
theorem sum_weight_interpS {G : Rule} (hG : G.Ok) (p : Fin 4 → V3) (f : Fin 4 → ℝ) :
    ∑ j, weight G p j * interpS G f j = calcVol G p * ((∑ i, f i) / 4) := by
  have : ∑ j, weight G p j * interpS G f j = ∑ i, f i * detJ p * ∑ j, G.a i j * G.pds j := by
    simp only [interpS, weight, Finset.mul_sum]
    rw [Finset.sum_comm]
    exact Finset.sum_congr rfl fun i _ => Finset.sum_congr rfl fun j _ => by ring
  rw [this, calcVol_eq hG]
  simp only [hG.hat]
  rw [← Finset.sum_mul, ← Finset.sum_mul]
  ring

/-- scalar product with an interpolated vector -/
theorem dot_interpV (G : Rule) (k : V3) (u : Fin 4 → V3) (j : Fin G.n) :
    k.dot (interpV G u j) = interpS G (fun i => k.dot (u i)) j := by
  simp only [interpV, interpS, V3.dot, V3.add_x, V3.add_y, V3.add_z, V3.smul_x, V3.smul_y, V3.smul_z, Fin.sum_univ_four]
  ring

theorem aw_eq {G : Rule} (hG : G.Ok) (p : Fin 4 → V3) (i : Fin 4) : aw G p i = calcVol G p / 4 := by
  have : aw G p i = detJ p * ∑ j, G.a i j * G.pds j := by
    unfold aw weight
    rw [Finset.mul_sum]
    exact Finset.sum_congr rfl fun j _ => by ring
  rw [this, hG.hat, calcVol_eq hG]
  ring

/-- exactness on products of two hat functions (degree two), for the five point rule -/
theorem rule5_hat2 (i k : Fin 4) : ∑ j, rule5.pds j * (rule5.a i j * rule5.a k j) = if i = k then 1 / 60 else 1 / 120 := by
  rw [rule5_sum_pds]
  simp only [rule5_a0, rule5_a1, rule5_a2, rule5_a3, rule5_a4]
  fin_cases i <;> fin_cases k <;> norm_num

/-- integral of the square of an interpolated quantity -/
theorem sum_weight_sq (p : Fin 4 → V3) (f : Fin 4 → ℝ) :
    ∑ j, weight rule5 p j * (interpS rule5 f j * interpS rule5 f j) =
      calcVol rule5 p * ((∑ i, f i * f i) + (∑ i, f i) * (∑ i, f i)) / 20 := by
  have : ∑ j, weight rule5 p j * (interpS rule5 f j * interpS rule5 f j) =
      detJ p * ∑ i, ∑ k, f i * f k * ∑ j, rule5.pds j * (rule5.a i j * rule5.a k j) := by
    simp only [interpS, weight, Finset.mul_sum, Finset.sum_mul]
    rw [Finset.sum_comm]
    refine Finset.sum_congr rfl fun i _ => ?_
    rw [Finset.sum_comm]
    exact Finset.sum_congr rfl fun k _ => Finset.sum_congr rfl fun j _ => by ring
  rw [this, calcVol_eq rule5_ok]
  simp only [rule5_hat2, Fin.sum_univ_four]
  simp
  ring

end Verif.Tetra
