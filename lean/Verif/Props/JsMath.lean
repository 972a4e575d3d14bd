import Mathlib.Analysis.SpecialFunctions.Arsinh
import Mathlib.Analysis.SpecialFunctions.Arcosh
import Mathlib.Analysis.SpecialFunctions.Artanh
import Mathlib.Analysis.SpecialFunctions.Log.Deriv
import Mathlib.Analysis.Complex.ExponentialBounds
import Verif.Model.JsMath

/-!
# C83 The mathematical functions of the user's expressions

The reference is Mathlib: `Real.exp`, `Real.log`, `Real.cosh`, `Real.sinh`, `Real.tanh`, `Real.arcosh`, `Real.arsinh`,
`Real.artanh`.
-/

namespace Verif.JsMath

open Verif.Fl

/-- the result is a number within the relative error `e` of `y` -/
def Near (r : Fl) (y e : ℝ) : Prop := ∃ x, r = fin x ∧ |x - y| ≤ e * |y|

theorem Near.exact {r : Fl} {y : ℝ} (h : r = fin y) {e : ℝ} (he : 0 ≤ e) : Near r y e :=
  ⟨y, h, by rw [sub_self, abs_zero]; positivity⟩

/-! ## reduction to reals -/

theorem gt_fin (a b : ℝ) : (fin a).gt (fin b) ↔ b < a := by simp [Fl.gt, Fl.le]
theorem abs_fin (a : ℝ) : (fin a).abs = fin |a| := rfl
theorem add_fin (a b : ℝ) : fin a + fin b = fin (a + b) := rfl
theorem neg_fin (a : ℝ) : -(fin a) = fin (-a) := rfl
theorem sub_fin (a b : ℝ) : fin a - fin b = fin (a - b) := by
  show fin (a + -b) = _
  rw [sub_eq_add_neg]
theorem mul_fin (a b : ℝ) : fin a * fin b = fin (a * b) := rfl
theorem div_fin {a b : ℝ} (h : b ≠ 0) : fin a / fin b = fin (a / b) := by
  show Fl.div _ _ = _
  simp [Fl.div, h]
theorem exp_fin (a : ℝ) : exp (fin a) = fin (Real.exp a) := rfl
theorem log_fin {a : ℝ} (h : 0 < a) : log (fin a) = fin (Real.log a) := by
  simp [log, h.not_gt, h.ne']
theorem sqrt_fin {a : ℝ} (h : 0 ≤ a) : Fl.sqrt (fin a) = fin (√a) := by
  simp [Fl.sqrt, h.not_gt]

/-! ## bounds -/

theorem exp_small {x : ℝ} (h : |x| < 2e-8) : |x - (Real.exp x - 1)| ≤ 3e-8 * |Real.exp x - 1| := by
  have h1 := Real.abs_exp_sub_one_sub_id_le (x := x) (by linarith)
  have h2 : x ^ 2 ≤ 2e-8 * |x| := by
    rw [← sq_abs]
    nlinarith [abs_nonneg x]
  have h3 : |x| - |Real.exp x - 1| ≤ |x - (Real.exp x - 1)| := abs_sub_abs_le_abs_sub _ _
  have h4 : |x - (Real.exp x - 1)| ≤ 2e-8 * |x| := by
    rw [abs_sub_comm]
    exact h1.trans h2
  nlinarith [abs_nonneg (Real.exp x - 1)]

theorem log_small {x : ℝ} (h : |x| < 2e-8) : |x - Real.log (1 + x)| ≤ 3e-8 * |Real.log (1 + x)| := by
  have h1 := Real.abs_log_sub_add_sum_range_le (x := -x) (by rw [abs_neg]; linarith) 1
  simp only [Finset.sum_range_one, abs_neg, sub_neg_eq_add] at h1
  norm_num at h1
  have h2 : |x| ^ 2 / (1 - |x|) ≤ 2.5e-8 * |x| := by
    rw [div_le_iff₀ (by linarith)]
    nlinarith [abs_nonneg x]
  have h3 : |x| - |Real.log (1 + x)| ≤ |x - Real.log (1 + x)| := abs_sub_abs_le_abs_sub _ _
  have h4 : |x - Real.log (1 + x)| ≤ 2.5e-8 * |x| := by
    rw [abs_sub_comm, sub_eq_neg_add, ]
    refine le_trans ?_ h2
    simpa using h1
  nlinarith [abs_nonneg (Real.log (1 + x))]

theorem sinh_small {x : ℝ} (h : |x| ≤ 1) : |x - Real.sinh x| ≤ |x| ^ 3 := by
  have a := Real.exp_bound h (n := 4) (by norm_num)
  have b := Real.exp_bound (x := -x) (by rwa [abs_neg]) (n := 4) (by norm_num)
  simp only [Finset.sum_range_succ, Finset.sum_range_zero, abs_neg] at a b
  norm_num [Nat.factorial] at a b
  have h4 : |x| ^ 4 ≤ |x| ^ 3 := pow_le_pow_of_le_one (abs_nonneg x) h (by norm_num)
  have h3 : |x ^ 3| = |x| ^ 3 := abs_pow x 3
  rw [Real.sinh_eq]
  rw [abs_le] at a b ⊢
  have hl := neg_abs_le (x ^ 3)
  have hr := le_abs_self (x ^ 3)
  rw [h3] at hl hr
  have h0 : 0 ≤ |x| ^ 3 := by positivity
  constructor
  · nlinarith [a.1, a.2, b.1, b.2]
  · nlinarith [a.1, a.2, b.1, b.2]

theorem rel_of_cube {x y : ℝ} (hx : |x| < 1e-5) (h : |x - y| ≤ |x| ^ 3) : |x - y| ≤ 2e-10 * |y| := by
  have h3 : |x| - |y| ≤ |x - y| := abs_sub_abs_le_abs_sub _ _
  have h0 := abs_nonneg x
  have h2 : |x| ^ 2 ≤ 1e-10 := by nlinarith
  have h4 : |x| ^ 3 ≤ 1e-10 * |x| := by nlinarith
  nlinarith [abs_nonneg y]

theorem artanh_small {x : ℝ} (h : |x| < 1e-5) : |x - Real.artanh x| ≤ 2 * |x| ^ 3 := by
  have hx := abs_lt.mp h
  have a := Real.abs_log_sub_add_sum_range_le (x := x) (by linarith) 2
  have b := Real.abs_log_sub_add_sum_range_le (x := -x) (by rw [abs_neg]; linarith) 2
  simp only [Finset.sum_range_succ, Finset.sum_range_zero, abs_neg, sub_neg_eq_add] at a b
  norm_num at a b
  have h2 : |x| ^ 3 / (1 - |x|) ≤ 2 * |x| ^ 3 := by
    rw [div_le_iff₀ (by linarith)]
    have : 0 ≤ |x| ^ 3 := by positivity
    nlinarith
  rw [Real.artanh_eq_half_log ⟨by linarith, by linarith⟩, Real.log_div (by linarith) (by linarith)]
  rw [abs_le] at a b ⊢
  constructor
  · linarith [a.1, a.2, b.1, b.2]
  · linarith [a.1, a.2, b.1, b.2]

/-! ## the functions on finite numbers -/

/-- **C83** `expm1` -/
theorem C83_expm1 (x : ℝ) : Near (expm1 (fin x)) (Real.exp x - 1) 3e-8 := by
  unfold expm1
  rw [abs_fin, gt_fin]
  split_ifs with h
  · exact ⟨x, rfl, exp_small h⟩
  · rw [exp_fin, sub_fin]
    exact Near.exact rfl (by norm_num)

/-- **C83** `log1p`: right for `x > -1`, minus infinity at -1, NaN below -/
theorem C83_log1p (x : ℝ) :
    (-1 < x → Near (log1p (fin x)) (Real.log (1 + x)) 3e-8) ∧ log1p (fin (-1)) = inf true ∧
      (x < -1 → log1p (fin x) = nan) := by
  unfold log1p
  refine ⟨fun hx => ?_, ?_, fun hx => ?_⟩
  · rw [abs_fin, gt_fin]
    split_ifs with h
    · exact ⟨x, rfl, log_small h⟩
    · rw [add_fin, log_fin (by linarith)]
      exact Near.exact rfl (by norm_num)
  · rw [abs_fin, gt_fin, if_neg (by norm_num), add_fin]
    simp [log]
  · rw [abs_fin, gt_fin, if_neg (by rw [abs_of_neg (by linarith)]; norm_num; linarith), add_fin]
    simp [log, show 1 + x < 0 by linarith]

theorem exp_half (x : ℝ) : Real.exp (x - Real.log 2) = Real.exp x / 2 := by
  rw [Real.exp_sub, Real.exp_log (by norm_num)]

/-- **C83** `cosh` is exact -/
theorem C83_cosh (x : ℝ) : cosh (fin x) = fin (Real.cosh x) := by
  unfold cosh LN2
  rw [sub_fin, neg_fin, sub_fin, exp_fin, exp_fin, add_fin, exp_half, exp_half, Real.cosh_eq]
  congr 1
  ring

/-- **C83** `sinh` -/
theorem C83_sinh (x : ℝ) : Near (sinh (fin x)) (Real.sinh x) 2e-10 := by
  unfold sinh LN2
  rw [abs_fin, gt_fin]
  split_ifs with h
  · exact ⟨x, rfl, rel_of_cube h (sinh_small (by linarith))⟩
  · rw [sub_fin, neg_fin, sub_fin, exp_fin, exp_fin, sub_fin, exp_half, exp_half]
    refine Near.exact ?_ (by norm_num)
    rw [Real.sinh_eq]
    congr 1
    ring

theorem tanh_exp (x : ℝ) : Real.tanh x = (Real.exp (2 * x) - 1) / (Real.exp (2 * x) + 1) := by
  rw [Real.tanh_eq_sinh_div_cosh, Real.sinh_eq, Real.cosh_eq]
  have h1 := Real.exp_pos x
  have h2 : Real.exp (2 * x) = Real.exp x * Real.exp x := by rw [← Real.exp_add]; ring_nf
  rw [h2, Real.exp_neg]
  field_simp

theorem tanh_far {x : ℝ} (h : 20 < x) : |1 - Real.tanh x| ≤ 1e-16 * |Real.tanh x| := by
  have e40 : (1e17 : ℝ) ≤ Real.exp (2 * x) := by
    have h1 : Real.exp 40 ≤ Real.exp (2 * x) := Real.exp_le_exp.mpr (by linarith)
    have h2 : Real.exp 40 = Real.exp 1 ^ 40 := by
      rw [← Real.exp_nat_mul]
      norm_num
    have h3 : (2.7 : ℝ) ^ 40 ≤ Real.exp 1 ^ 40 :=
      pow_le_pow_left₀ (by norm_num) (by linarith [Real.exp_one_gt_d9]) 40
    have h4 : (1e17 : ℝ) ≤ 2.7 ^ 40 := by norm_num
    linarith
  rw [tanh_exp]
  set E := Real.exp (2 * x)
  have hp : 0 < E + 1 := by linarith
  have e1 : 1 - (E - 1) / (E + 1) = 2 / (E + 1) := by field_simp; ring
  rw [e1, abs_of_pos (by positivity), abs_of_pos (by apply div_pos <;> linarith), ← mul_div_assoc]
  apply div_le_div_of_nonneg_right _ hp.le
  linarith

/-- **C83** `tanh` -/
theorem C83_tanh (x : ℝ) : Near (tanh (fin x)) (Real.tanh x) 3e-8 := by
  unfold tanh
  rw [abs_fin, gt_fin]
  split_ifs with h
  · rcases lt_abs.mp h with h' | h'
    · refine ⟨1, by simp [sign, show ¬ x < 0 by linarith, show x ≠ 0 by linarith], ?_⟩
      have := tanh_far h'
      nlinarith [abs_nonneg (Real.tanh x)]
    · refine ⟨-1, by simp [sign, show x < 0 by linarith], ?_⟩
      have := tanh_far h'
      rw [Real.tanh_neg, abs_neg, sub_neg_eq_add] at this
      rw [show -1 - Real.tanh x = -(1 + Real.tanh x) by ring, abs_neg]
      nlinarith [abs_nonneg (Real.tanh x)]
  · obtain ⟨y, hy, hb⟩ := C83_expm1 (2 * x)
    have hp := Real.exp_pos (2 * x)
    rw [mul_fin, hy, exp_fin, add_fin, div_fin (by linarith)]
    refine ⟨_, rfl, ?_⟩
    rw [tanh_exp, ← sub_div, abs_div, abs_div, ← mul_div_assoc]
    exact div_le_div_of_nonneg_right hb (abs_nonneg _)

/-- **C83** `acosh`: within `1 / x²` above `10^8`, exact below, NaN below one -/
theorem C83_acosh (x : ℝ) :
    (1 ≤ x → ∃ y, acosh (fin x) = fin y ∧ |y - Real.arcosh x| ≤ 1e-16 ∧ (x ≤ 1e8 → y = Real.arcosh x)) ∧
      (x < 1 → acosh (fin x) = nan) := by
  unfold acosh LN2
  rw [gt_fin]
  constructor
  · intro hx
    split_ifs with h
    · rw [log_fin (by linarith), add_fin]
      refine ⟨_, rfl, ?_, fun h' => absurd h' (by linarith)⟩
      unfold Real.arcosh
      set r := √(x ^ 2 - 1)
      have hr : 0 ≤ r := Real.sqrt_nonneg _
      have hr2 : r * r = x ^ 2 - 1 := Real.mul_self_sqrt (by nlinarith)
      have hrx : r ≤ x := by nlinarith
      rw [← Real.log_mul (by linarith) (by norm_num), ← Real.log_div (by positivity) (by positivity)]
      have h1 : 1 ≤ x * 2 / (x + r) := by
        rw [le_div_iff₀ (by linarith)]
        linarith
      rw [abs_of_nonneg (Real.log_nonneg h1)]
      have h2 := Real.log_le_sub_one_of_pos (show 0 < x * 2 / (x + r) by linarith)
      refine h2.trans ?_
      rw [sub_le_iff_le_add, div_le_iff₀ (by linarith)]
      have h3 : (x - r) * (x + r) = 1 := by linear_combination -hr2
      have h4 : x - r ≤ 1e-16 * (x + r) := by
        have : 1e16 * ((x - r) * (x + r)) ≤ (x + r) * (x + r) := by
          rw [h3]
          nlinarith
        have h5 : 1e16 * (x - r) ≤ x + r := by
          by_contra hc
          push Not at hc
          nlinarith
        linarith
      linarith
    · have h0 : 0 ≤ x * x - 1 := by nlinarith
      rw [mul_fin, sub_fin, sqrt_fin h0, add_fin, log_fin (by have := Real.sqrt_nonneg (x * x - 1); linarith)]
      have e : Real.log (x + √(x * x - 1)) = Real.arcosh x := by
        unfold Real.arcosh
        rw [sq]
      exact ⟨_, rfl, by rw [e, sub_self, abs_zero]; norm_num, fun _ => e⟩
  · intro hx
    rw [if_neg (by linarith), mul_fin, sub_fin]
    by_cases h0 : x * x - 1 < 0
    · simp only [Fl.sqrt, h0, if_true]
      rfl
    · push Not at h0
      rw [sqrt_fin h0, add_fin]
      have hneg : x + √(x * x - 1) < 0 := by
        have hx1 : x ≤ -1 := by nlinarith
        have : √(x * x - 1) < -x := by
          rw [Real.sqrt_lt' (by linarith)]
          nlinarith
        linarith
      simp [log, hneg]

/-- **C83** `asinh` -/
theorem C83_asinh (x : ℝ) : Near (asinh (fin x)) (Real.arsinh x) 2e-10 := by
  unfold asinh LN2
  rw [abs_fin, gt_fin]
  split_ifs with h
  · refine ⟨x, rfl, ?_⟩
    set y := Real.arsinh x with hy
    have hs : Real.sinh y = x := Real.sinh_arsinh x
    have hyx : |y| ≤ |x| := by
      rw [← hs, Real.abs_sinh]
      exact Real.self_le_sinh_iff.mpr (abs_nonneg y)
    have hc := sinh_small (x := y) (by linarith)
    rw [hs, abs_sub_comm] at hc
    have h0 := abs_nonneg y
    have h2 : |y| ^ 2 ≤ 1e-10 := by nlinarith
    nlinarith
  · have hr : 0 < √(1 + x ^ 2) := Real.sqrt_pos.mpr (by positivity)
    have hh : hypot (fin 1) (fin x) = fin (√(1 + x ^ 2)) := by
      show Fl.sqrt (fin 1 * fin 1 + fin x * fin x) = _
      rw [mul_fin, mul_fin, add_fin, sqrt_fin (by nlinarith [mul_self_nonneg x])]
      ring_nf
    have hp : 0 < |x| / 2 + √(1 + x ^ 2) / 2 := by linarith [abs_nonneg x]
    rw [hh, div_fin (by norm_num), div_fin (by norm_num), add_fin, log_fin hp, add_fin, ← Real.log_mul hp.ne' (by norm_num)]
    have e : (|x| / 2 + √(1 + x ^ 2) / 2) * 2 = |x| + √(1 + |x| ^ 2) := by rw [sq_abs]; ring
    rw [e]
    have ea : Real.log (|x| + √(1 + |x| ^ 2)) = Real.arsinh |x| := rfl
    rw [ea]
    refine Near.exact ?_ (by norm_num)
    push Not at h
    rcases lt_or_ge x 0 with hx | hx
    · simp only [sign, hx, if_true]
      rw [mul_fin, abs_of_neg hx, Real.arsinh_neg]
      congr 1
      ring
    · have hx0 : x ≠ 0 := by
        rintro rfl
        norm_num at h
      simp only [sign, hx.not_gt, hx0, if_false]
      rw [mul_fin, abs_of_nonneg hx, one_mul]

/-- **C83** `atanh`: infinite at one and minus one, NaN beyond -/
theorem C83_atanh (x : ℝ) :
    (|x| < 1 → Near (atanh (fin x)) (Real.artanh x) 3e-10) ∧ atanh (fin 1) = inf false ∧ atanh (fin (-1)) = inf true ∧
      (1 < |x| → atanh (fin x) = nan) := by
  unfold atanh
  refine ⟨fun hx => ?_, ?_, ?_, fun hx => ?_⟩
  · rw [abs_fin, gt_fin]
    have hx' := abs_lt.mp hx
    split_ifs with h
    · refine ⟨x, rfl, ?_⟩
      have h1 := artanh_small h
      have h3 : |x| - |Real.artanh x| ≤ |x - Real.artanh x| := abs_sub_abs_le_abs_sub _ _
      have h0 := abs_nonneg x
      have h2 : |x| ^ 2 ≤ 1e-10 := by nlinarith
      nlinarith [abs_nonneg (Real.artanh x)]
    · have hp : 0 < (1 + x) / (1 - x) := div_pos (by linarith) (by linarith)
      rw [add_fin, sub_fin, div_fin (by linarith), log_fin hp, div_fin (by norm_num)]
      refine Near.exact ?_ (by norm_num)
      rw [Real.artanh_eq_half_log ⟨by linarith, by linarith⟩]
      congr 1
      ring
  · rw [abs_fin, gt_fin, if_neg (by norm_num), add_fin, sub_fin]
    have : fin (1 + 1) / fin (1 - 1) = inf false := by
      show Fl.div _ _ = _
      norm_num [Fl.div]
    rw [this]
    simp only [log]
    show Fl.div _ _ = _
    norm_num [Fl.div]
  · rw [abs_fin, gt_fin, if_neg (by norm_num), add_fin, sub_fin, div_fin (by norm_num)]
    have : log (fin ((1 + -1) / (1 - -1))) = inf true := by norm_num [log]
    rw [this]
    show Fl.div _ _ = _
    norm_num [Fl.div]
  · rw [abs_fin, gt_fin, if_neg (by push Not; linarith), add_fin, sub_fin]
    have h1 : 1 - x ≠ 0 := by
      rintro h
      rw [show x = 1 by linarith] at hx
      norm_num at hx
    rw [div_fin h1]
    have hneg : (1 + x) / (1 - x) < 0 := by
      rcases lt_abs.mp hx with h | h
      · exact div_neg_of_pos_of_neg (by linarith) (by linarith)
      · exact div_neg_of_neg_of_pos (by linarith) (by linarith)
    simp only [log, hneg, if_true]
    rfl

/-! ## infinities and NaN -/

theorem gt_inf (a : ℝ) (b : Bool) : ¬ (fin a).gt ((inf b).abs) := by simp [Fl.gt, Fl.le, Fl.abs]
theorem gt_nan (a : Fl) : ¬ a.gt (nan.abs) := by cases a <;> simp [Fl.gt, Fl.abs]

/-- **C83** The limits at plus and minus infinity (`acosh` and `log1p` are not defined at minus infinity, `atanh` at none). -/
theorem C83_infinity :
    (expm1 (inf false) = inf false ∧ expm1 (inf true) = fin (-1)) ∧
    (log1p (inf false) = inf false ∧ log1p (inf true) = nan) ∧
    (cosh (inf false) = inf false ∧ cosh (inf true) = inf false) ∧
    (sinh (inf false) = inf false ∧ sinh (inf true) = inf true) ∧
    (tanh (inf false) = fin 1 ∧ tanh (inf true) = fin (-1)) ∧
    (acosh (inf false) = inf false ∧ acosh (inf true) = nan) ∧
    (asinh (inf false) = inf false ∧ asinh (inf true) = inf true) ∧
    (atanh (inf false) = nan ∧ atanh (inf true) = nan) := by
  have hadd : ∀ (a : ℝ) (b : Bool), fin a + inf b = inf b := fun _ _ => rfl
  have hadd' : ∀ (a : ℝ) (b : Bool), inf b + fin a = inf b := fun _ _ => rfl
  have hsub : ∀ (a : ℝ) (b : Bool), inf b - fin a = inf b := fun _ _ => rfl
  have hsub' : ∀ (a : ℝ) (b : Bool), fin a - inf b = inf !b := fun _ _ => rfl
  have hneg : ∀ b : Bool, -(inf b) = inf !b := fun _ => rfl
  have hdiv : ∀ (a : ℝ) (b : Bool), 0 < a → inf b / fin a = inf b := by
    intro a b h
    show Fl.div _ _ = _
    cases b <;> simp [Fl.div, h.not_gt]
  have hdiv' : ∀ a b : Bool, inf a / inf b = nan := fun _ _ => rfl
  have hmul : ∀ (a : ℝ) (b : Bool), 0 < a → fin a * inf b = inf b := by
    intro a b h
    show Fl.mul _ _ = _
    cases b <;> simp [Fl.mul, h.not_gt, h.ne']
  have hmul' : ∀ a b : Bool, inf a * inf b = inf (a != b) := fun _ _ => rfl
  have hmuln : (fin (-1)) * inf false = inf true := by
    show Fl.mul _ _ = _
    simp [Fl.mul]
  have hg20 : ∀ b, (inf b).abs.gt (fin 20) := by intro b; simp [Fl.gt, Fl.le, Fl.abs]
  have hg8 : (inf false).gt (fin 1e8) := by simp [Fl.gt, Fl.le]
  have hg8' : ¬ (inf true).gt (fin 1e8) := by simp [Fl.gt, Fl.le]
  have hinf : inf false + inf false = inf false := by
    show Fl.add _ _ = _
    simp [Fl.add]
  have hnan : inf true + inf false = nan := by
    show Fl.add _ _ = _
    simp [Fl.add]
  have hexp : exp (inf false) = inf false := rfl
  have hexp' : exp (inf true) = fin 0 := rfl
  have hlog : log (inf false) = inf false := rfl
  have hlog' : log (inf true) = nan := rfl
  have hlogn : log nan = nan := rfl
  have hsq : Fl.sqrt (inf false) = inf false := rfl
  have hh : ∀ b, hypot (fin 1) (inf b) = inf false := fun _ => rfl
  have hab : ∀ b, (inf b).abs = inf false := fun _ => rfl
  have hs1 : sign (inf false) = fin 1 := rfl
  have hs2 : sign (inf true) = fin (-1) := rfl
  have hnd : nan / fin 2 = nan := rfl
  refine ⟨⟨?_, ?_⟩, ⟨?_, ?_⟩, ⟨?_, ?_⟩, ⟨?_, ?_⟩, ⟨?_, ?_⟩, ⟨?_, ?_⟩, ⟨?_, ?_⟩, ⟨?_, ?_⟩⟩
  · rw [expm1, if_neg (gt_inf _ _), hexp, hsub]
  · rw [expm1, if_neg (gt_inf _ _), hexp', sub_fin, zero_sub]
  · rw [log1p, if_neg (gt_inf _ _), hadd, hlog]
  · rw [log1p, if_neg (gt_inf _ _), hadd, hlog']
  · rw [cosh, LN2, hneg, hsub, hsub]; exact hadd' _ _
  · rw [cosh, LN2, hneg, hsub, hsub]; exact hadd _ _
  · rw [sinh, LN2, if_neg (gt_inf _ _), hneg, hsub, hsub]; exact hsub _ _
  · rw [sinh, LN2, if_neg (gt_inf _ _), hneg, hsub, hsub]; exact hsub' _ _
  · rw [tanh, if_pos (hg20 _), hs1]
  · rw [tanh, if_pos (hg20 _), hs2]
  · rw [acosh, LN2, if_pos hg8, hlog, hadd']
  · rw [acosh, LN2, if_neg hg8', hmul', hsub]
    show log (inf true + Fl.sqrt (inf false)) = nan
    rw [hsq, hnan, hlogn]
  · rw [asinh, LN2, if_neg (gt_inf _ _), hs1, hh, hab, hdiv _ _ (by norm_num), hinf, hlog, hadd', hmul _ _ (by norm_num)]
  · rw [asinh, LN2, if_neg (gt_inf _ _), hs2, hh, hab, hdiv _ _ (by norm_num), hinf, hlog, hadd', hmuln]
  · rw [atanh, if_neg (gt_inf _ _), hadd, hsub', hdiv', hlogn, hnd]
  · rw [atanh, if_neg (gt_inf _ _), hadd, hsub', hdiv', hlogn, hnd]

/-- **C83** NaN gives NaN. -/
theorem C83_nan : expm1 nan = nan ∧ log1p nan = nan ∧ cosh nan = nan ∧ sinh nan = nan ∧ tanh nan = nan ∧ acosh nan = nan ∧
    asinh nan = nan ∧ atanh nan = nan := by
  have h20 : ¬ nan.abs.gt (fin 20) := by simp [Fl.gt, Fl.abs]
  have h8 : ¬ nan.gt (fin 1e8) := by simp [Fl.gt]
  refine ⟨?_, ?_, rfl, ?_, ?_, ?_, ?_, ?_⟩
  · rw [expm1, if_neg (gt_nan _)]; rfl
  · rw [log1p, if_neg (gt_nan _)]; rfl
  · rw [sinh, if_neg (gt_nan _)]; rfl
  · rw [tanh, if_neg h20, show fin 2 * nan = nan from rfl, expm1, if_neg (gt_nan _)]; rfl
  · rw [acosh, if_neg h8]; rfl
  · rw [asinh, if_neg (gt_nan _)]; rfl
  · rw [atanh, if_neg (gt_nan _)]; rfl

/-- **C83** The error of `expm1` is not that of rounding: the relative error 3e-8 cannot be replaced by 8e-9. -/
theorem C83_sharp : ∃ x : ℝ, ¬ Near (expm1 (fin x)) (Real.exp x - 1) 8e-9 := by
  refine ⟨1.9e-8, ?_⟩
  rintro ⟨y, hy, hb⟩
  unfold expm1 at hy
  rw [abs_fin, gt_fin, if_pos (by rw [abs_of_pos] <;> norm_num)] at hy
  obtain rfl : (1.9e-8 : ℝ) = y := by injection hy
  have h1 := Real.quadratic_le_exp_of_nonneg (x := 1.9e-8) (by norm_num)
  have h2 := Real.abs_exp_sub_one_sub_id_le (x := 1.9e-8) (by rw [abs_of_pos] <;> norm_num)
  have h3 := (abs_le.mp h2).2
  rw [abs_sub_comm, abs_of_nonneg (by norm_num at h1 ⊢; linarith), abs_of_nonneg (by norm_num at h1 ⊢)] at hb
  norm_num at h1 h3 hb
  linarith

/-! ## cases -/

/-- both branches of `acosh`, and a value outside the domain -/
example : (∃ y, acosh (fin 2) = fin y ∧ y = Real.arcosh 2) ∧ (∃ y, acosh (fin 1e9) = fin y ∧ |y - Real.arcosh 1e9| ≤ 1e-16) ∧
    acosh (fin 0) = nan := by
  obtain ⟨y, h, -, h'⟩ := (C83_acosh 2).1 (by norm_num)
  obtain ⟨z, hz, hz', -⟩ := (C83_acosh 1e9).1 (by norm_num)
  exact ⟨⟨y, h, h' (by norm_num)⟩, ⟨z, hz, hz'⟩, (C83_acosh 0).2 (by norm_num)⟩

/-- both branches of `atanh`, and a value outside the domain -/
example : Near (atanh (fin 1e-6)) (Real.artanh 1e-6) 3e-10 ∧ Near (atanh (fin (-1 / 2))) (Real.artanh (-1 / 2)) 3e-10 ∧
    atanh (fin 2) = nan :=
  ⟨(C83_atanh _).1 (by rw [abs_of_pos] <;> norm_num), (C83_atanh _).1 (by rw [abs_of_neg] <;> norm_num),
    (C83_atanh _).2.2.2 (by rw [abs_of_pos] <;> norm_num)⟩

end Verif.JsMath
