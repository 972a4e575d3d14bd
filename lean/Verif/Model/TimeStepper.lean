import Mathlib.Analysis.SpecialFunctions.Pow.Real

/-!
# Time step selection (`class TimeStepper`, src/time_integration.cpp:11-38; `class timing`,
src/time_integration.h:6-59)
-/

namespace Verif

/-- `FLT_EPSILON` (IEEE binary32): 2^-23. -/
noncomputable def fltEpsilon : ℝ := 1 / 2 ^ 23

/-- `TimeStepper`, time_integration.cpp:11-15. -/
structure TimeStepper where
  hardMin : ℝ
  hardMax : ℝ
  softMax : ℝ

namespace TimeStepper

/-- constructor, time_integration.cpp:18-21 -/
noncomputable def mk' (initial min max : ℝ) : TimeStepper :=
  { hardMin := min, hardMax := max * (1 + fltEpsilon), softMax := initial }

/-- `set_soft_limit`, time_integration.cpp:24 -/
noncomputable def setSoftLimit (s : TimeStepper) (m : ℝ) : TimeStepper :=
  { s with softMax := min s.softMax m }

open Classical in
/-- the step returned by `operator()(stride)`, time_integration.cpp:30-34 -/
noncomputable def step (s : TimeStepper) (stride : ℝ) : ℝ :=
  let step := min stride s.softMax
  if stride - 2 * s.hardMin < step ∧ step < stride then stride - 2 * s.hardMin else step

/-- the state after `operator()(stride)`, time_integration.cpp:35 -/
noncomputable def next (s : TimeStepper) (stride : ℝ) : TimeStepper :=
  { s with softMax := max s.softMax (min (s.step stride * 1.1) s.hardMax) }

end TimeStepper

/-- `std::round` followed by the conversion to `int` (time_integration.cpp:159): halfway cases away
from zero. Overflow of `int` is not modelled. -/
noncomputable def cRound (x : ℝ) : ℤ :=
  if 0 ≤ x then ⌊x + 1 / 2⌋ else -⌊-x + 1 / 2⌋

end Verif
