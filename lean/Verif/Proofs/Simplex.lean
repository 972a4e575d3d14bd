import Mathlib.Algebra.MvPolynomial.Eval
import Mathlib.MeasureTheory.Integral.IntervalIntegral.IntegrationByParts
import Verif.Spec.Simplex

/-!
# Integrals of monomials over the reference simplices
-/

namespace Verif.Simplex

open intervalIntegral

/-- Euler's first integral for integer exponents -/
theorem beta (L : ℝ) (n b : ℕ) :
    ∫ y in (0 : ℝ)..L, y ^ b * (L - y) ^ n = L ^ (b + n + 1) * (b.factorial * n.factorial / (b + n + 1).factorial) := by
  induction n generalizing b with
  | zero =>
    simp only [pow_zero, mul_one, integral_pow, Nat.factorial_zero, Nat.cast_one, add_zero]
    rw [Nat.factorial_succ]
    have : (b.factorial : ℝ) ≠ 0 := by exact_mod_cast b.factorial_ne_zero
    push_cast
    field_simp
    ring
  | succ n ih =>
    have h1 : ∀ x ∈ Set.uIcc 0 L, HasDerivAt (fun y : ℝ => (L - y) ^ (n + 1)) (-((n + 1 : ℝ) * (L - x) ^ n)) x := by
      intro x _
      have h := ((hasDerivAt_id x).const_sub L).fun_pow (n + 1)
      simpa using h
    have h2 : ∀ x ∈ Set.uIcc 0 L, HasDerivAt (fun y : ℝ => y ^ (b + 1) / (b + 1 : ℝ)) (x ^ b) x := by
      intro x _
      have h := ((hasDerivAt_id x).fun_pow (b + 1)).div_const (b + 1 : ℝ)
      have hb : (b + 1 : ℝ) ≠ 0 := by positivity
      have e : (b + 1 : ℝ) * x ^ b / (b + 1 : ℝ) = x ^ b := by field_simp
      rw [← e]
      simpa using h
    have h3 : IntervalIntegrable (fun x : ℝ => -((n + 1 : ℝ) * (L - x) ^ n)) MeasureTheory.volume 0 L :=
      Continuous.intervalIntegrable (by fun_prop) _ _
    have h4 : IntervalIntegrable (fun x : ℝ => x ^ b) MeasureTheory.volume 0 L :=
      Continuous.intervalIntegrable (by fun_prop) _ _
    have h5 := integral_mul_deriv_eq_deriv_mul h1 h2 h3 h4
    have e1 : ∫ y in (0 : ℝ)..L, y ^ b * (L - y) ^ (n + 1) = ∫ x in (0 : ℝ)..L, (L - x) ^ (n + 1) * x ^ b :=
      integral_congr fun x _ => mul_comm _ _
    have e2 : ∫ x in (0 : ℝ)..L, -((n + 1 : ℝ) * (L - x) ^ n) * (x ^ (b + 1) / (b + 1 : ℝ))
        = -((n + 1 : ℝ) / (b + 1)) * ∫ x in (0 : ℝ)..L, x ^ (b + 1) * (L - x) ^ n := by
      rw [← integral_const_mul]
      exact integral_congr fun x _ => by ring
    rw [e1, h5, e2, ih (b + 1)]
    have hf : ((b + 1).factorial : ℝ) = (b + 1) * b.factorial := by rw [Nat.factorial_succ]; push_cast; ring
    have hn : ((n + 1).factorial : ℝ) = (n + 1) * n.factorial := by rw [Nat.factorial_succ]; push_cast; ring
    have hb : (b + 1 : ℝ) ≠ 0 := by positivity
    rw [show b + 1 + n + 1 = b + (n + 1) + 1 by ring, hf, hn]
    simp
    field_simp

theorem monoTri (a b : ℕ) :
    intTri (fun u v => u ^ a * v ^ b) = a.factorial * b.factorial / (a + b + 2).factorial := by
  unfold intTri
  have e : ∀ u : ℝ, ∫ v in (0 : ℝ)..(1 - u), u ^ a * v ^ b = (1 / (b + 1 : ℝ)) * (u ^ a * (1 - u) ^ (b + 1)) := by
    intro u
    rw [integral_const_mul, integral_pow]
    simp
    ring
  simp only [e]
  rw [integral_const_mul, beta]
  have hb : ((b + 1).factorial : ℝ) = (b + 1) * b.factorial := by rw [Nat.factorial_succ]; push_cast; ring
  have h0 : (b + 1 : ℝ) ≠ 0 := by positivity
  rw [show a + (b + 1) + 1 = a + b + 2 by ring, hb]
  simp
  field_simp

theorem monoTet (a b c : ℕ) :
    intTet (fun u v w => u ^ a * v ^ b * w ^ c) =
      a.factorial * b.factorial * c.factorial / (a + b + c + 3).factorial := by
  unfold intTet
  have e : ∀ u v : ℝ, ∫ w in (0 : ℝ)..(1 - u - v), u ^ a * v ^ b * w ^ c =
      (u ^ a / (c + 1 : ℝ)) * (v ^ b * ((1 - u) - v) ^ (c + 1)) := by
    intro u v
    rw [integral_const_mul, integral_pow]
    simp
    ring
  simp only [e]
  have hc : ((c + 1).factorial : ℝ) = (c + 1) * c.factorial := by rw [Nat.factorial_succ]; push_cast; ring
  have h0 : (c + 1 : ℝ) ≠ 0 := by positivity
  have e2 : ∀ u : ℝ, ∫ v in (0 : ℝ)..(1 - u), (u ^ a / (c + 1 : ℝ)) * (v ^ b * ((1 - u) - v) ^ (c + 1)) =
      (b.factorial * c.factorial / (b + c + 2).factorial : ℝ) * (u ^ a * (1 - u) ^ (b + c + 2)) := by
    intro u
    rw [integral_const_mul, beta, hc, show b + (c + 1) + 1 = b + c + 2 by ring]
    field_simp
  simp only [e2]
  rw [integral_const_mul, beta, show a + (b + c + 2) + 1 = a + b + c + 3 by ring]
  have : ((b + c + 2).factorial : ℝ) ≠ 0 := by exact_mod_cast (b + c + 2).factorial_ne_zero
  simp
  field_simp

/-- linear combinations -/
theorem sumTri {ι : Type} (s : Finset ι) (k : ι → ℝ) (a b : ι → ℕ) :
    intTri (fun u v => ∑ d ∈ s, k d * (u ^ a d * v ^ b d)) = ∑ d ∈ s, k d * intTri (fun u v => u ^ a d * v ^ b d) := by
  unfold intTri
  have e : ∀ u : ℝ, ∫ v in (0 : ℝ)..(1 - u), ∑ d ∈ s, k d * (u ^ a d * v ^ b d) =
      ∑ d ∈ s, k d * ∫ v in (0 : ℝ)..(1 - u), u ^ a d * v ^ b d := by
    intro u
    rw [integral_finsetSum fun d _ => Continuous.intervalIntegrable (by fun_prop) _ _]
    exact Finset.sum_congr rfl fun d _ => integral_const_mul _ _
  simp only [e]
  have e1 : ∀ d (u : ℝ), ∫ v in (0 : ℝ)..(1 - u), u ^ a d * v ^ b d =
      u ^ a d * ((1 - u) ^ (b d + 1) / (b d + 1)) := by
    intro d u
    rw [integral_const_mul, integral_pow]
    simp
  rw [integral_finsetSum]
  · exact Finset.sum_congr rfl fun d _ => integral_const_mul _ _
  · intro d _
    simp only [e1]
    exact Continuous.intervalIntegrable (by fun_prop) _ _

theorem sumTet {ι : Type} (s : Finset ι) (k : ι → ℝ) (a b c : ι → ℕ) :
    intTet (fun u v w => ∑ d ∈ s, k d * (u ^ a d * v ^ b d * w ^ c d)) =
      ∑ d ∈ s, k d * intTet (fun u v w => u ^ a d * v ^ b d * w ^ c d) := by
  unfold intTet
  have e0 : ∀ d (u v : ℝ), ∫ w in (0 : ℝ)..(1 - u - v), u ^ a d * v ^ b d * w ^ c d =
      (u ^ a d / (c d + 1 : ℝ)) * (v ^ b d * ((1 - u) - v) ^ (c d + 1)) := by
    intro d u v
    rw [integral_const_mul, integral_pow]
    simp
    ring
  have e : ∀ u v : ℝ, ∫ w in (0 : ℝ)..(1 - u - v), ∑ d ∈ s, k d * (u ^ a d * v ^ b d * w ^ c d) =
      ∑ d ∈ s, k d * ∫ w in (0 : ℝ)..(1 - u - v), u ^ a d * v ^ b d * w ^ c d := by
    intro u v
    rw [integral_finsetSum fun d _ => Continuous.intervalIntegrable (by fun_prop) _ _]
    exact Finset.sum_congr rfl fun d _ => integral_const_mul _ _
  simp only [e]
  have e1 : ∀ u : ℝ, ∫ v in (0 : ℝ)..(1 - u), ∑ d ∈ s, k d * ∫ w in (0 : ℝ)..(1 - u - v), u ^ a d * v ^ b d * w ^ c d =
      ∑ d ∈ s, k d * ∫ v in (0 : ℝ)..(1 - u), ∫ w in (0 : ℝ)..(1 - u - v), u ^ a d * v ^ b d * w ^ c d := by
    intro u
    simp only [e0]
    rw [integral_finsetSum fun d _ => Continuous.intervalIntegrable (by fun_prop) _ _]
    exact Finset.sum_congr rfl fun d _ => integral_const_mul _ _
  simp only [e1]
  have e2 : ∀ d (u : ℝ), ∫ v in (0 : ℝ)..(1 - u), ∫ w in (0 : ℝ)..(1 - u - v), u ^ a d * v ^ b d * w ^ c d =
      (u ^ a d / (c d + 1 : ℝ)) * ((1 - u) ^ (b d + (c d + 1) + 1) *
        ((b d).factorial * (c d + 1).factorial / (b d + (c d + 1) + 1).factorial)) := by
    intro d u
    simp only [e0]
    rw [integral_const_mul, beta]
  rw [integral_finsetSum]
  · exact Finset.sum_congr rfl fun d _ => integral_const_mul _ _
  · intro d _
    simp only [e2]
    exact Continuous.intervalIntegrable (by fun_prop) _ _

/-- integral of a polynomial in three variables -/
theorem polyTet (f : MvPolynomial (Fin 3) ℝ) :
    intTet (fun u v w => MvPolynomial.eval ![u, v, w] f) =
      ∑ d ∈ f.support, f.coeff d *
        ((d 0).factorial * (d 1).factorial * (d 2).factorial / (d 0 + d 1 + d 2 + 3).factorial) := by
  have e : (fun u v w : ℝ => MvPolynomial.eval ![u, v, w] f) =
      fun u v w => ∑ d ∈ f.support, f.coeff d * (u ^ d 0 * v ^ d 1 * w ^ d 2) := by
    funext u v w
    rw [MvPolynomial.eval_eq']
    exact Finset.sum_congr rfl fun d _ => by rw [Fin.prod_univ_three]; rfl
  rw [e, sumTet]
  exact Finset.sum_congr rfl fun d _ => by rw [monoTet]

/-- integral of a polynomial in two variables -/
theorem polyTri (f : MvPolynomial (Fin 2) ℝ) :
    intTri (fun u v => MvPolynomial.eval ![u, v] f) =
      ∑ d ∈ f.support, f.coeff d * ((d 0).factorial * (d 1).factorial / (d 0 + d 1 + 2).factorial) := by
  have e : (fun u v : ℝ => MvPolynomial.eval ![u, v] f) =
      fun u v => ∑ d ∈ f.support, f.coeff d * (u ^ d 0 * v ^ d 1) := by
    funext u v
    rw [MvPolynomial.eval_eq']
    exact Finset.sum_congr rfl fun d _ => by rw [Fin.prod_univ_two]; rfl
  rw [e, sumTri]
  exact Finset.sum_congr rfl fun d _ => by rw [monoTri]

end Verif.Simplex
