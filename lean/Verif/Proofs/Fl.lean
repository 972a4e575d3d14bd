import Mathlib.Tactic.Linarith
import Verif.Model.Fl

namespace Verif.Fl

@[simp] theorem isFin_fin (x : ℝ) : (fin x).IsFin := trivial

theorem isFin_iff {a : Fl} : a.IsFin ↔ ∃ x, a = fin x := by
  cases a <;> simp [IsFin]

theorem isNan_iff {a : Fl} : a.IsNan ↔ a = nan := by
  cases a <;> simp [IsNan]

@[simp] theorem fin_add (x y : ℝ) : (fin x + fin y : Fl) = fin (x + y) := rfl
@[simp] theorem fin_mul (x y : ℝ) : (fin x * fin y : Fl) = fin (x * y) := rfl
@[simp] theorem fin_neg (x : ℝ) : (-fin x : Fl) = fin (-x) := rfl
@[simp] theorem fin_sub (x y : ℝ) : (fin x - fin y : Fl) = fin (x - y) := by
  show fin (x + -y) = fin (x - y); rw [sub_eq_add_neg]
theorem zero_eq : (0 : Fl) = fin 0 := rfl

theorem fin_div {x y : ℝ} (h : y ≠ 0) : (fin x / fin y : Fl) = fin (x / y) := by
  show Fl.div _ _ = _; simp [Fl.div, h]

@[simp] theorem nan_add (a : Fl) : nan + a = nan := by cases a <;> rfl
@[simp] theorem add_nan (a : Fl) : a + nan = nan := by cases a <;> rfl
@[simp] theorem nan_mul (a : Fl) : nan * a = nan := by cases a <;> rfl
@[simp] theorem mul_nan (a : Fl) : a * nan = nan := by cases a <;> rfl
@[simp] theorem nan_sub (a : Fl) : nan - a = nan := nan_add _
@[simp] theorem neg_nan : (-nan : Fl) = nan := rfl
@[simp] theorem sub_nan (a : Fl) : a - nan = nan := add_nan _
@[simp] theorem nan_div (a : Fl) : nan / a = nan := by cases a <;> rfl
@[simp] theorem div_nan (a : Fl) : a / nan = nan := by cases a <;> rfl

theorem isFin_add {a b : Fl} : (a + b).IsFin ↔ a.IsFin ∧ b.IsFin := by
  cases a with
  | nan => simp [IsFin]
  | inf s => cases b with
    | nan => simp [IsFin]
    | inf t =>
      have : (inf s + inf t : Fl) = if s = t then inf s else nan := rfl
      rw [this]; split <;> simp [IsFin]
    | fin y => exact ⟨fun h => h.elim, fun h => h.1.elim⟩
  | fin x => cases b with
    | nan => simp [IsFin]
    | inf t => exact ⟨fun h => h.elim, fun h => h.2.elim⟩
    | fin y => simp

theorem isFin_neg {a : Fl} : (-a).IsFin ↔ a.IsFin := by
  cases a <;> exact Iff.rfl

theorem isFin_sub {a b : Fl} : (a - b).IsFin ↔ a.IsFin ∧ b.IsFin := by
  show (a + -b).IsFin ↔ _
  rw [isFin_add, isFin_neg]

theorem isFin_mul {a b : Fl} : (a * b).IsFin ↔ a.IsFin ∧ b.IsFin := by
  cases a with
  | nan => simp [IsFin]
  | inf s => cases b with
    | nan => simp [IsFin]
    | inf t => exact ⟨fun h => h.elim, fun h => h.1.elim⟩
    | fin y =>
      have : (inf s * fin y : Fl) = if y = 0 then nan else inf (s != decide (y < 0)) := by
        show Fl.mul _ _ = _
        simp [Fl.mul]
      rw [this]; split <;> simp [IsFin]
  | fin x => cases b with
    | nan => simp [IsFin]
    | inf t =>
      have : (fin x * inf t : Fl) = if x = 0 then nan else inf (t != decide (x < 0)) := by
        show Fl.mul _ _ = _
        simp [Fl.mul]
      rw [this]; split <;> simp [IsFin]
    | fin y => simp

/-- a zero times anything is zero or NaN -/
theorem zero_mul' (a : Fl) : (0 : Fl) * a = 0 ∨ (0 : Fl) * a = nan := by
  cases a with
  | nan => right; simp
  | inf s => right; show Fl.mul (fin 0) (inf s) = nan; simp [Fl.mul]
  | fin x => left; rw [zero_eq, fin_mul, zero_mul]

theorem mul_zero' (a : Fl) : a * (0 : Fl) = 0 ∨ a * (0 : Fl) = nan := by
  cases a with
  | nan => right; simp
  | inf s => right; show Fl.mul (inf s) (fin 0) = nan; simp [Fl.mul]
  | fin x => left; rw [zero_eq, fin_mul, mul_zero]

theorem isFin_abs {a : Fl} : a.abs.IsFin ↔ a.IsFin := by cases a <;> exact Iff.rfl

theorem le_fin {a : Fl} {y : ℝ} (hn : ∀ s, a ≠ inf s) (h : a.le (fin y)) : ∃ x, a = fin x ∧ x ≤ y := by
  cases a with
  | nan => exact h.elim
  | inf s => exact absurd rfl (hn s)
  | fin x => exact ⟨x, rfl, h⟩

/-- a number that is neither NaN nor negative -/
def NonNeg : Fl → Prop
  | nan => False
  | inf s => s = false
  | fin x => 0 ≤ x

/-- a number that is NaN or not negative -/
def NN (a : Fl) : Prop := a = nan ∨ a.NonNeg

theorem nonNeg_add {a b : Fl} (ha : a.NonNeg) (hb : b.NonNeg) : (a + b).NonNeg := by
  cases a with
  | nan => exact ha.elim
  | inf s => cases b with
    | nan => exact hb.elim
    | inf t =>
      have hs : s = false := ha
      have ht : t = false := hb
      subst hs; subst ht
      show NonNeg (if false = false then inf false else nan)
      simp [NonNeg]
    | fin y => exact ha
  | fin x => cases b with
    | nan => exact hb.elim
    | inf t => exact hb
    | fin y => exact add_nonneg ha hb

theorem nonNeg_sq {a : Fl} (h : a ≠ nan) : (a * a).NonNeg := by
  cases a with
  | nan => exact absurd rfl h
  | inf s => cases s <;> rfl
  | fin x => exact mul_self_nonneg x

theorem sqrt_fin {x : ℝ} (h : 0 ≤ x) : (fin x).sqrt = fin (Real.sqrt x) := by
  simp [sqrt, not_lt.mpr h]

theorem isFin_sqrt_abs {a : Fl} : a.abs.sqrt.IsFin ↔ a.IsFin := by
  cases a with
  | nan => exact Iff.rfl
  | inf s => simp [abs, sqrt, IsFin]
  | fin x => simp [abs, sqrt, not_lt.mpr (abs_nonneg x)]

end Verif.Fl
