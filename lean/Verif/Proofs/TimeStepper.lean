import Verif.Model.TimeStepper
import Mathlib.Tactic.Positivity

/-! Helper lemmas on `TimeStepper`. -/

namespace Verif.TimeStepper

theorem fltEpsilon_pos : 0 < fltEpsilon := by unfold fltEpsilon; positivity

theorem step_le_stride (s : TimeStepper) (d : ℝ) : s.step d ≤ d := by
  unfold step; simp only
  split_ifs with h
  · exact (h.1.le.trans h.2.le)
  · exact min_le_left _ _

theorem step_le_soft (s : TimeStepper) (d : ℝ) : s.step d ≤ s.softMax := by
  unfold step; simp only
  split_ifs with h
  · exact h.1.le.trans (min_le_right _ _)
  · exact min_le_right _ _

/-- a step that does not reach the target leaves at least `2*hard_min` -/
theorem step_gap (s : TimeStepper) (d : ℝ) (h : s.step d ≠ d) : s.step d ≤ d - 2 * s.hardMin := by
  unfold step at *; simp only at *
  split_ifs at * with h1
  · exact le_refl _
  · by_contra hc; push Not at hc
    exact h1 ⟨hc, lt_of_le_of_ne (min_le_left _ _) h⟩

theorem step_lower (s : TimeStepper) (d : ℝ) (hd : s.hardMin ≤ d) (h0 : 0 ≤ s.hardMin)
    (hs : 3 * s.hardMin ≤ s.softMax) : s.hardMin ≤ s.step d := by
  unfold step; simp only
  split_ifs with h
  · rcases le_total d s.softMax with h' | h'
    · rw [min_eq_left h'] at h; exact absurd h.2 (lt_irrefl _)
    · linarith
  · exact le_min hd (by linarith)

@[simp] theorem next_hardMin (s : TimeStepper) (d : ℝ) : (s.next d).hardMin = s.hardMin := rfl
@[simp] theorem next_hardMax (s : TimeStepper) (d : ℝ) : (s.next d).hardMax = s.hardMax := rfl
@[simp] theorem setSoft_hardMin (s : TimeStepper) (d : ℝ) : (s.setSoftLimit d).hardMin = s.hardMin := rfl
@[simp] theorem setSoft_hardMax (s : TimeStepper) (d : ℝ) : (s.setSoftLimit d).hardMax = s.hardMax := rfl

theorem setSoft_le (s : TimeStepper) (d : ℝ) : (s.setSoftLimit d).softMax ≤ d := min_le_right _ _
theorem setSoft_le_self (s : TimeStepper) (d : ℝ) : (s.setSoftLimit d).softMax ≤ s.softMax :=
  min_le_left _ _
theorem next_ge (s : TimeStepper) (d : ℝ) : s.softMax ≤ (s.next d).softMax := le_max_left _ _
theorem next_le (s : TimeStepper) (d B : ℝ) (h1 : s.softMax ≤ B) (h2 : s.hardMax ≤ B) :
    (s.next d).softMax ≤ B :=
  max_le h1 ((min_le_right _ _).trans h2)

end Verif.TimeStepper
