import Verif.Proofs.Electro
import Verif.Proofs.Rounded
import Verif.Spec.Maximum

/-!
# Elements without obtuse angles: signs of the products of the gradients of the shape functions
-/

namespace Verif.Tetra

open Verif.Electro

theorem daRow_nonobtuse {p : Fin 4 → V3} (h : NonObtuse4 p) (i j : Fin 4) (hij : i ≠ j) :
    (daRow p i).dot (daRow p j) ≤ 0 := by
  have key : ∀ i j : Fin 4, i ≠ j → ∃ k l : Fin 4, i ≠ k ∧ i ≠ l ∧ j ≠ k ∧ j ≠ l ∧ k ≠ l ∧
      (gradNum p i).dot (gradNum p j) = -((p l - p k).cross (p i - p k)).dot ((p l - p k).cross (p j - p k)) := by
    intro i j hij
    fin_cases i <;> fin_cases j <;> first
      | exact absurd rfl hij
      | (first
          | refine ⟨0, 1, by decide, by decide, by decide, by decide, by decide, ?_⟩
          | refine ⟨0, 2, by decide, by decide, by decide, by decide, by decide, ?_⟩
          | refine ⟨0, 3, by decide, by decide, by decide, by decide, by decide, ?_⟩
          | refine ⟨1, 2, by decide, by decide, by decide, by decide, by decide, ?_⟩
          | refine ⟨1, 3, by decide, by decide, by decide, by decide, by decide, ?_⟩
          | refine ⟨2, 3, by decide, by decide, by decide, by decide, by decide, ?_⟩
         simp [gradNum, V3.dot, V3.cross]
         ring)
  obtain ⟨k, l, h1, h2, h3, h4, h5, he⟩ := key i j hij
  have h6 := h i j k l hij h1 h2 h3 h4 h5
  rw [daRow_eq, daRow_eq]
  have e : ((detJ p)⁻¹ * gradNum p i).dot ((detJ p)⁻¹ * gradNum p j) = (detJ p)⁻¹ ^ 2 * (gradNum p i).dot (gradNum p j) := by
    simp only [V3.dot, V3.smul_x, V3.smul_y, V3.smul_z]
    ring
  rw [e, he]
  have := mul_nonneg (sq_nonneg (detJ p)⁻¹) h6
  linarith

/-- the gradient of a shape function is the inverse of the height -/
theorem daRow_height {p : Fin 4 → V3} (hp : 0 < detJ p) {η : ℝ} (hη : 0 ≤ η) (h : HeightsAtLeast η p) (i : Fin 4) :
    η ^ 2 * (daRow p i).dot (daRow p i) ≤ 1 := by
  have key : ∃ j k l : Fin 4, i ≠ j ∧ i ≠ k ∧ i ≠ l ∧ j ≠ k ∧ j ≠ l ∧ k ≠ l ∧
      (gradNum p i).nsq = ((p k - p j).cross (p l - p j)).nsq := by
    fin_cases i
    · refine ⟨1, 2, 3, by decide, by decide, by decide, by decide, by decide, by decide, ?_⟩
      simp [gradNum, V3.nsq, V3.cross]; ring
    · refine ⟨0, 2, 3, by decide, by decide, by decide, by decide, by decide, by decide, ?_⟩
      simp [gradNum, V3.nsq, V3.cross]
    · refine ⟨0, 3, 1, by decide, by decide, by decide, by decide, by decide, by decide, ?_⟩
      simp [gradNum, V3.nsq, V3.cross]
    · refine ⟨0, 1, 2, by decide, by decide, by decide, by decide, by decide, by decide, ?_⟩
      simp [gradNum, V3.nsq, V3.cross]
  obtain ⟨j, k, l, h1, h2, h3, h4, h5, h6, he⟩ := key
  have h7 := h i j k l h1 h2 h3 h4 h5 h6
  have h8 : (η * ((p k - p j).cross (p l - p j)).norm) ^ 2 ≤ detJ p ^ 2 :=
    pow_le_pow_left₀ (mul_nonneg hη (Real.sqrt_nonneg _)) h7 2
  have h9 : ((p k - p j).cross (p l - p j)).norm ^ 2 = (gradNum p i).nsq := by
    rw [he]
    exact Real.sq_sqrt (Electro.nsq_nonneg _)
  rw [mul_pow, h9] at h8
  rw [daRow_eq]
  have e : ((detJ p)⁻¹ * gradNum p i).dot ((detJ p)⁻¹ * gradNum p i) = (gradNum p i).nsq / detJ p ^ 2 := by
    simp only [V3.dot, V3.nsq, V3.smul_x, V3.smul_y, V3.smul_z]
    field_simp
  rw [e, ← mul_div_assoc]
  exact (div_le_one (by positivity)).mpr h8

theorem corner_nonobtuse : NonObtuse4 ![⟨0, 0, 0⟩, ⟨1, 0, 0⟩, ⟨0, 1, 0⟩, ⟨0, 0, 1⟩] := by
  intro i j k l h1 h2 h3 h4 h5 h6
  generalize hq : (![⟨0, 0, 0⟩, ⟨1, 0, 0⟩, ⟨0, 1, 0⟩, ⟨0, 0, 1⟩] : Fin 4 → V3) = q
  have q0 : q 0 = ⟨0, 0, 0⟩ := by rw [← hq]; rfl
  have q1 : q 1 = ⟨1, 0, 0⟩ := by rw [← hq]; rfl
  have q2 : q 2 = ⟨0, 1, 0⟩ := by rw [← hq]; rfl
  have q3 : q 3 = ⟨0, 0, 1⟩ := by rw [← hq]; rfl
  clear hq
  fin_cases i <;> fin_cases j <;> first
    | exact absurd rfl h1
    | (fin_cases k <;> first
        | exact absurd rfl h2
        | exact absurd rfl h4
        | (fin_cases l <;> first
            | exact absurd rfl h3
            | exact absurd rfl h5
            | exact absurd rfl h6
            | (simp [q0, q1, q2, q3, V3.cross, V3.dot])))

theorem regular_nonobtuse : NonObtuse4 ![⟨1, 1, 1⟩, ⟨1, 0, 0⟩, ⟨0, 0, 1⟩, ⟨0, 1, 0⟩] := by
  intro i j k l h1 h2 h3 h4 h5 h6
  generalize hq : (![⟨1, 1, 1⟩, ⟨1, 0, 0⟩, ⟨0, 0, 1⟩, ⟨0, 1, 0⟩] : Fin 4 → V3) = q
  have q0 : q 0 = ⟨1, 1, 1⟩ := by rw [← hq]; rfl
  have q1 : q 1 = ⟨1, 0, 0⟩ := by rw [← hq]; rfl
  have q2 : q 2 = ⟨0, 0, 1⟩ := by rw [← hq]; rfl
  have q3 : q 3 = ⟨0, 1, 0⟩ := by rw [← hq]; rfl
  clear hq
  fin_cases i <;> fin_cases j <;> first
    | exact absurd rfl h1
    | (fin_cases k <;> first
        | exact absurd rfl h2
        | exact absurd rfl h4
        | (fin_cases l <;> first
            | exact absurd rfl h3
            | exact absurd rfl h5
            | exact absurd rfl h6
            | (simp [q0, q1, q2, q3, V3.cross, V3.dot])))

theorem gradV_dot (p : Fin 4 → V3) (f g : Fin 4 → ℝ) :
    (gradV p f).dot (gradV p g) = ∑ i, ∑ j, (daRow p i).dot (daRow p j) * (f i * g j) := by
  unfold gradV
  simp only [Fin.sum_univ_four, V3.dot, V3.add_x, V3.add_y, V3.add_z, V3.smul_x, V3.smul_y, V3.smul_z]
  ring

/-- what exceeds zero may be replaced by itself -/
theorem gradV_trunc {p : Fin 4 → V3} (h : NonObtuse4 p) (y : Fin 4 → ℝ) :
    (gradV p fun i => max (y i) 0).dot (gradV p fun i => max (y i) 0) ≤ (gradV p fun i => max (y i) 0).dot (gradV p y) := by
  rw [gradV_dot, gradV_dot]
  refine Finset.sum_le_sum fun i _ => Finset.sum_le_sum fun j _ => ?_
  by_cases hij : i = j
  · subst hij
    apply le_of_eq
    congr 1
    rcases le_total (y i) 0 with hy | hy
    · rw [max_eq_right hy]; ring
    · rw [max_eq_left hy]
  · refine mul_le_mul_of_nonpos_left ?_ (daRow_nonobtuse h i j hij)
    exact mul_le_mul_of_nonneg_left (le_max_left _ _) (le_max_right _ _)

end Verif.Tetra
