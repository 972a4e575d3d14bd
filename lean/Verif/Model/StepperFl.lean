import Verif.Model.Fl
import Verif.Model.TimeStepper

/-!
# Time step selection with infinities and NaN (src/time_integration.cpp:11-38, src/time_integration.h:10-43)

`Model/TimeStepper` over the reals is the same for settings that give real numbers.
-/

namespace Verif

open Classical in
/-- `std::min(a, b)`: the second if it is less than the first -/
noncomputable def Fl.stdMin (a b : Fl) : Fl := if a.gt b then b else a

open Classical in
/-- `std::max(a, b)`: the second if the first is less -/
noncomputable def Fl.stdMax (a b : Fl) : Fl := if b.gt a then b else a

open Classical in
/-- `log` -/
noncomputable def Fl.log : Fl → Fl
  | nan => nan
  | inf s => if s then nan else inf false
  | fin x => if x < 0 then nan else if x = 0 then inf true else fin (Real.log x)

/-- `TimeStepper`, time_integration.cpp:11-15 -/
structure StepperF where
  hardMin : Fl
  hardMax : Fl
  softMax : Fl

namespace StepperF

/-- the stepper of a run: the initial step is `sqrt(DTMIN * DTMAX)` (time_integration.h:14), given to the constructor
(time_integration.cpp:18-21) at time_integration.cpp:160 -/
noncomputable def start (dtmin dtmax : Fl) : StepperF :=
  { hardMin := dtmin, hardMax := dtmax * .fin (1 + fltEpsilon), softMax := (dtmin * dtmax).sqrt }

/-- `set_soft_limit`, time_integration.cpp:24 -/
noncomputable def setSoftLimit (s : StepperF) (m : Fl) : StepperF := { s with softMax := s.softMax.stdMin m }

open Classical in
/-- the step returned by `operator()(stride)`, time_integration.cpp:30-34 -/
noncomputable def step (s : StepperF) (stride : Fl) : Fl :=
  let step := stride.stdMin s.softMax
  if step.gt (stride - .fin 2 * s.hardMin) ∧ stride.gt step then stride - .fin 2 * s.hardMin else step

/-- the state after `operator()(stride)`, time_integration.cpp:35 -/
noncomputable def next (s : StepperF) (stride : Fl) : StepperF :=
  { s with softMax := s.softMax.stdMax ((s.step stride * .fin 1.1).stdMin s.hardMax) }

/-- attempts at the same distance from the next output, all solves failing (time_integration.cpp:174, 208-214): the stepper
before attempt `i` -/
noncomputable def retry (s : StepperF) (stride : Fl) : ℕ → StepperF
  | 0 => s
  | i + 1 => ((retry s stride i).next stride).setSoftLimit ((retry s stride i).step stride / .fin 2)

end StepperF

/-- `prefactor`, time_integration.h:37-42, with `TAUR = 100 * DTMAX` (line 12) -/
noncomputable def prefactorF (dtmax dt : Fl) : Fl :=
  let tTilde := dt / (.fin 100 * dtmax)
  .fin 1 + tTilde * (Fl.log tTilde).abs

end Verif
